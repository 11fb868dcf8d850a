import Verif.Model.PPrint
import Verif.Lemmas.CParse
import Mathlib.Tactic.Ring
import Mathlib.Algebra.Order.Ring.Int

/-!
# Printed expressions have the value of the expression
-/

namespace Verif.PExpr
open Verif.CText Verif.CParse Verif.Clast Verif.PPrint Verif.IntOps

/-- The four macros. -/
def macroName (f : String) : Bool := f == "floord" || f == "ceild" || f == "min" || f == "max"

mutual
/-- All calls are calls of the four macros, with two arguments. -/
def onlyMacros : CExpr → Bool
  | .num _ => true
  | .var _ => true
  | .neg e => onlyMacros e
  | .bin _ a b => onlyMacros a && onlyMacros b
  | .call f args => macroName f && args.length == 2 && allMacros args
/-- In a list of expressions. -/
def allMacros : List CExpr → Bool
  | [] => true
  | e :: es => onlyMacros e && allMacros es
end

/-- The tokens are an expression of level `k` with the values `f`. -/
def PV (k : Nat) (ts : List Tok) (f : Env → Int) : Prop :=
  ∃ c, Parse k ts c ∧ (∀ env, CExpr.eval env c = f env) ∧ onlyMacros c = true

theorem PV.lift {k : Nat} {ts : List Tok} {f : Env → Int} (hk : k < 6) (h : PV k ts f) : PV (k + 1) ts f := by
  obtain ⟨c, a, b⟩ := h
  exact ⟨c, .lift hk a, b⟩

theorem PV.mono {k l : Nat} {ts : List Tok} {f : Env → Int} (hkl : k ≤ l) (hl : l ≤ 6) (h : PV k ts f) :
    PV l ts f := by
  induction l with
  | zero => have : k = 0 := by omega
            exact this ▸ h
  | succ l ih =>
    rcases Nat.lt_or_ge l k with h1 | h1
    · have : k = l + 1 := by omega
      exact this ▸ h
    · exact (ih h1 (by omega)).lift (by omega)

theorem PV.congr {k : Nat} {ts : List Tok} {f g : Env → Int} (h : PV k ts f) (e : ∀ env, f env = g env) :
    PV k ts g := by
  obtain ⟨c, a, b, m⟩ := h
  exact ⟨c, a, fun env => (b env).trans (e env), m⟩

theorem PV.bin {k : Nat} {p q : List Tok} {f g : Env → Int} {t : Tok} {o : BOp} (ht : Tok.bop t = some o)
    (hl : o.level = k + 1) (h1 : PV (k + 1) p f) (h2 : PV k q g) :
    PV (k + 1) (p ++ t :: q) (fun env => o.eval (f env) (g env)) := by
  obtain ⟨c, a, b, m⟩ := h1
  obtain ⟨c', a', b', m'⟩ := h2
  exact ⟨.bin o c c', .bin ht hl a a', fun env => by simp only [CExpr.eval, b, b'], by simp [onlyMacros, m, m']⟩

theorem PV.neg {ts : List Tok} {f : Env → Int} (h : PV 1 ts f) : PV 1 (.minus :: ts) (fun env => - f env) := by
  obtain ⟨c, a, b, m⟩ := h
  exact ⟨.neg c, .neg a, fun env => by simp only [CExpr.eval, b], by simpa [onlyMacros] using m⟩

theorem PV.paren {k : Nat} {ts : List Tok} {f : Env → Int} (hk : k ≤ 6) (h : PV k ts f) :
    PV 0 (.lpar :: (ts ++ [.rpar])) f := by
  obtain ⟨c, a, b⟩ := h.mono hk (Nat.le_refl 6)
  exact ⟨c, .paren a, b⟩

theorem PV.call2 {k : Nat} (m : String) (hm : macroName m = true) {p q : List Tok} {f g : Env → Int} (hk : k ≤ 6)
    (h1 : PV k p f) (h2 : PV k q g) :
    PV 0 (.id m :: .lpar :: (p ++ .comma :: (q ++ [.rpar]))) (fun env => macroVal m [f env, g env]) := by
  obtain ⟨c, a, b, m1⟩ := h1.mono hk (Nat.le_refl 6)
  obtain ⟨c', a', b', m2⟩ := h2.mono hk (Nat.le_refl 6)
  refine ⟨.call m [c, c'], ?_, fun env => by simp only [CExpr.eval, CExpr.evals, b, b'],
    by simp [onlyMacros, allMacros, hm, m1, m2]⟩
  have := Parse.call (f := m) (.cons a (.one a'))
  simpa using this

/-- A sum written after a plus sign. -/
theorem plus_parse {p : List Tok} {a : CExpr} (ha : Parse 3 p a) : ∀ {k q c}, Parse k q c → k = 3 →
    ∃ c', Parse 3 (p ++ .plus :: q) c' ∧ (∀ env, CExpr.eval env c' = CExpr.eval env a + CExpr.eval env c) ∧
      (onlyMacros a = true → onlyMacros c = true → onlyMacros c' = true)
  | _, _, _, .num _, hk => by omega
  | _, _, _, .var _, hk => by omega
  | _, _, _, .paren _, hk => by omega
  | _, _, _, .call0 _, hk => by omega
  | _, _, _, .call _, hk => by omega
  | _, _, _, .neg _, hk => by omega
  | _, _, c, .lift (k := k) _ h, hk => by
    have : k = 2 := by omega
    subst this
    exact ⟨.bin .add a c, .bin rfl rfl ha h, fun env => by simp only [CExpr.eval, BOp.eval],
      fun h1 h2 => by simp [onlyMacros, h1, h2]⟩
  | _, _, _, .bin (k := k) (p := q1) (a := x) (q := q2) (b := y) (t := t) (o := o) ht hl h1 h2, hk => by
    have : k = 2 := by omega
    subst this
    obtain ⟨c', g1, g2, g3⟩ := plus_parse ha h1 rfl
    refine ⟨.bin o c' y, ?_, fun env => ?_, fun m1 m2 => ?_⟩
    · have := Parse.bin ht hl g1 h2
      simpa [List.append_assoc] using this
    · simp only [CExpr.eval, g2]
      cases o <;> simp [BOp.level] at hl <;> simp only [BOp.eval] <;> ring
    · simp only [onlyMacros, Bool.and_eq_true] at m2 ⊢
      exact ⟨g3 m1 m2.1, m2.2⟩

theorem PV.plus {p q : List Tok} {f g : Env → Int} (h1 : PV 3 p f) (h2 : PV 3 q g) :
    PV 3 (p ++ .plus :: q) (fun env => f env + g env) := by
  obtain ⟨a, a1, a2, a3⟩ := h1
  obtain ⟨c, c1, c2, c3⟩ := h2
  obtain ⟨c', g1, g2, g3⟩ := plus_parse a1 c1 rfl
  exact ⟨c', g1, fun env => by rw [g2, a2, c2], g3 a3 c3⟩

/-! ## Signs -/

/-- `n` minus signs in front. -/
def negs (n : Nat) (ts : List Tok) : List Tok := List.replicate n .minus ++ ts

/-- The sign of `n` minus signs. -/
def sg (n : Nat) : Int := (-1) ^ n

theorem sg_zero : sg 0 = 1 := rfl
theorem sg_succ (n : Nat) : sg (n + 1) = - sg n := by unfold sg; ring

theorem sg_cases (n : Nat) : sg n = 1 ∨ sg n = -1 := by
  induction n with
  | zero => exact Or.inl rfl
  | succ n ih => rw [sg_succ]; rcases ih with h | h <;> rw [h] <;> simp

theorem negs_succ (n : Nat) (ts : List Tok) : negs (n + 1) ts = .minus :: negs n ts := by
  simp [negs, List.replicate_succ]

theorem negs_minus (n : Nat) (ts : List Tok) : negs n (.minus :: ts) = negs (n + 1) ts := by
  simp only [negs, List.replicate_succ', List.append_assoc, List.singleton_append]

theorem negs_append (n : Nat) (a b : List Tok) : negs n (a ++ b) = negs n a ++ b := by
  simp [negs]

theorem PV.negs {ts : List Tok} {f : Env → Int} (h : PV 1 ts f) (n : Nat) :
    PV 1 (negs n ts) (fun env => sg n * f env) := by
  induction n with
  | zero => exact h.congr fun env => by rw [sg_zero, one_mul]
  | succ n ih =>
    rw [negs_succ]
    exact ih.neg.congr fun env => by rw [sg_succ]; ring

/-- A product, whatever number of minus signs is written in front. -/
def Mul (ts : List Tok) (f : Env → Int) : Prop := ∀ n, PV 2 (negs n ts) (fun env => sg n * f env)

/-- A product that can be written after a factor. -/
def Pure (ts : List Tok) (f : Env → Int) : Prop :=
  ∀ n p g, PV 2 p g → PV 2 (p ++ .star :: negs n ts) (fun env => g env * (sg n * f env))

theorem Mul.pv {ts : List Tok} {f : Env → Int} (h : Mul ts f) : PV 2 ts f :=
  (h 0).congr fun env => by rw [sg_zero, one_mul]

theorem PV.mul {ts : List Tok} {f : Env → Int} (h : PV 1 ts f) : Mul ts f := fun n => (h.negs n).lift (by omega)

theorem PV.pure {ts : List Tok} {f : Env → Int} (h : PV 1 ts f) : Pure ts f := by
  intro n p g hp
  exact PV.bin (o := .mul) rfl rfl hp (h.negs n)

theorem Mul.neg {ts : List Tok} {f : Env → Int} (h : Mul ts f) : Mul (.minus :: ts) (fun env => - f env) := by
  intro n
  rw [negs_minus]
  exact (h (n + 1)).congr fun env => by rw [sg_succ]; ring

theorem Pure.neg {ts : List Tok} {f : Env → Int} (h : Pure ts f) : Pure (.minus :: ts) (fun env => - f env) := by
  intro n p g hp
  rw [negs_minus]
  exact (h (n + 1) p g hp).congr fun env => by rw [sg_succ]; ring

theorem Mul.congr {ts : List Tok} {f g : Env → Int} (h : Mul ts f) (e : ∀ env, f env = g env) : Mul ts g :=
  fun n => (h n).congr fun env => by rw [e]

theorem Pure.congr {ts : List Tok} {f g : Env → Int} (h : Pure ts f) (e : ∀ env, f env = g env) : Pure ts g :=
  fun n p x hp => (h n p x hp).congr fun env => by rw [e]

theorem Pure.star {p ts : List Tok} {f g : Env → Int} (hp : PV 2 p g) (h : Pure ts f) :
    PV 2 (p ++ .star :: ts) (fun env => g env * f env) :=
  (h 0 p g hp).congr fun env => by rw [sg_zero, one_mul]

theorem mul_star {a ts : List Tok} {f g : Env → Int} (ha : PV 1 a g) (h : Pure ts f) :
    Mul (a ++ .star :: ts) (fun env => g env * f env) := by
  intro n
  rw [negs_append]
  exact ((ha.negs n).lift (by omega) |> fun x => h.star x).congr fun env => by ring

theorem pure_star {a ts : List Tok} {f g : Env → Int} (ha : PV 1 a g) (h : Pure ts f) :
    Pure (a ++ .star :: ts) (fun env => g env * f env) := by
  intro n p x hp
  rw [negs_append]
  have := h.star (ha.pure n p x hp)
  rw [List.append_assoc, List.cons_append] at this
  exact this.congr fun env => by ring

/-! ## Integers -/

theorem printInt_pv (n : Int) : PV 1 (printInt n) (fun _ => n) := by
  unfold printInt
  have h : PV 1 [.num n.natAbs] (fun _ => (n.natAbs : Int)) :=
    ⟨.num n.natAbs, .lift (by omega) (.num _), fun env => rfl, rfl⟩
  split
  · exact h.neg.congr fun env => by omega
  · exact h.congr fun env => by omega

/-! ## The expressions that are printed right -/

mutual
/-- The text is a product. -/
def isMul : Expr → Bool
  | .name _ => true
  | .cst _ => true
  | .bin _ _ _ => true
  | .term c v => if c = 1 then group v || isMul v else true
  | .red _ [] => false
  | .red _ [e] => isMul e
  | .red .sum _ => false
  | .red _ _ => true
/-- The text can be written after a factor and `*`. -/
def isPure : Expr → Bool
  | .name _ => true
  | .cst _ => true
  | .bin .fdiv _ _ => true
  | .bin .cdiv _ _ => true
  | .bin _ _ _ => false
  | .term _ v => group v || (isMul v && isPure v)
  | .red _ [] => false
  | .red _ [e] => isPure e
  | .red .sum _ => false
  | .red _ _ => true
end

mutual
/-- The text starts with a minus sign. -/
def negStart : Expr → Bool
  | .name _ => false
  | .cst c => decide (c < 0)
  | .bin .fdiv _ _ => false
  | .bin .cdiv _ _ => false
  | .bin _ lhs _ => !group lhs && negStart lhs
  | .term c v => decide (c < 0) || (decide (c = 1) && !group v && negStart v)
  | .red _ [] => false
  | .red .sum (e :: _) => negStart e
  | .red _ [e] => negStart e
  | .red _ _ => false
end

/-- A term. -/
def isTerm : Expr → Bool
  | .cst _ => true
  | .term _ _ => true
  | _ => false

mutual
/-- The expressions that are printed right. -/
def ok : Expr → Bool
  | .name _ => true
  | .cst _ => true
  | .term c v => ok v && (group v || (decide (c = 1) || (isMul v && (decide (c = -1) || isPure v))) &&
      (!decide (c = -1) || !negStart v))
  | .bin .fdiv lhs _ => ok lhs
  | .bin .cdiv lhs _ => ok lhs
  | .bin _ lhs _ => ok lhs && (group lhs || isMul lhs)
  | .red _ [] => false
  | .red .sum (e :: es) => ok e && okTail es
  | .red _ (e :: es) => ok e && oks es
/-- The operands of a sum after the first. -/
def okTail : List Expr → Bool
  | [] => true
  | e :: es => ok e && isTerm e && decide (coef e ≠ 0) && okTail es
/-- All of them. -/
def oks : List Expr → Bool
  | [] => true
  | e :: es => ok e && oks es
end

/-! ## Minimum and maximum -/

/-- The two-argument operation printed for a reduction. -/
def mmOp : RedType → Int → Int → Int
  | .max => cmax
  | _ => cmin

theorem mmOp_eval {t : RedType} (a b : Int) : macroVal (mmName t) [a, b] = mmOp t a b := by
  cases t <;> simp [macroVal, mmName, mmOp]

theorem mmOp_assoc (t : RedType) (a b c : Int) : mmOp t (mmOp t a b) c = mmOp t a (mmOp t b c) := by
  cases t <;> simp only [mmOp, cmin, cmax] <;> (repeat' split) <;> omega

theorem red_cons {t : RedType} (ht : t ≠ .sum) (a b : Int) (l : List Int) :
    t.eval (a :: b :: l) = mmOp t a (t.eval (b :: l)) := by
  cases t <;> first | exact absurd rfl ht | rfl

theorem red_fold {t : RedType} (ht : t ≠ .sum) (l : List Int) : ∀ a, t.eval (a :: l) = l.foldl (mmOp t) a := by
  have h1 : ∀ (l : List Int) (a b : Int), l.foldl (mmOp t) (mmOp t a b) = mmOp t a (l.foldl (mmOp t) b) := by
    intro l
    induction l with
    | nil => intros; rfl
    | cons c l ih => intro a b; simp only [List.foldl_cons]; rw [mmOp_assoc, ih]
  induction l with
  | nil => intro a; cases t <;> first | exact absurd rfl ht | rfl
  | cons b l ih =>
    intro a
    rw [red_cons ht, ih, List.foldl_cons, h1]

/-! ## The printer -/

theorem parens_pv {k : Nat} {ts : List Tok} {f : Env → Int} (hk : k ≤ 6) (h : PV k ts f) : PV 1 (parens true ts) f := by
  simp only [parens, if_true]
  exact (h.paren hk).lift (by omega)

/-- What is shown of one expression. -/
structure Printed (e : Expr) : Prop where
  pv : PV 3 (printExpr e) (fun env => e.eval env)
  mul : isMul e = true → Mul (printExpr e) (fun env => e.eval env)
  pure : isPure e = true → isMul e = true → Pure (printExpr e) (fun env => e.eval env)

theorem Printed.of1 {e : Expr} (h : PV 1 (printExpr e) (fun env => e.eval env)) : Printed e :=
  ⟨h.mono (by omega) (by omega), fun _ => h.mul, fun _ _ => h.pure⟩

/-- A grouped or multiplicative operand. -/
theorem operand_mul {v : Expr} (h : Printed v) (hm : group v = true ∨ isMul v = true) :
    Mul (parens (group v) (printExpr v)) (fun env => v.eval env) := by
  cases hg : group v with
  | true => exact (parens_pv (by omega) h.pv).mul
  | false =>
    rw [hg] at hm
    simp only [parens, Bool.false_eq_true, if_false]
    exact h.mul (by simpa using hm)

theorem operand_pure {v : Expr} (h : Printed v) (hm : group v = true ∨ (isMul v = true ∧ isPure v = true)) :
    Pure (parens (group v) (printExpr v)) (fun env => v.eval env) := by
  cases hg : group v with
  | true => exact (parens_pv (by omega) h.pv).pure
  | false =>
    rw [hg] at hm
    simp only [parens, Bool.false_eq_true, if_false]
    have : isMul v = true ∧ isPure v = true := by simpa using hm
    exact h.pure this.2 this.1

theorem operand_pv {v : Expr} (h : Printed v) : PV 3 (parens (group v) (printExpr v)) (fun env => v.eval env) := by
  cases hg : group v with
  | true => exact (parens_pv (by omega) h.pv).mono (by omega) (by omega)
  | false => simpa only [parens, Bool.false_eq_true, if_false] using h.pv

theorem term_one {v : Expr} : printExpr (.term 1 v) = parens (group v) (printExpr v) := by
  simp [printExpr, printCoef]
theorem term_neg {v : Expr} : printExpr (.term (-1) v) = .minus :: parens (group v) (printExpr v) := by
  simp [printExpr, printCoef]
theorem term_coef {c : Int} (h1 : c ≠ 1) (h2 : c ≠ -1) {v : Expr} :
    printExpr (.term c v) = printInt c ++ .star :: parens (group v) (printExpr v) := by
  simp [printExpr, printCoef, h1, h2]

theorem printed_term {c : Int} {v : Expr} (h : Printed v) (ho : ok (.term c v) = true) : Printed (.term c v) := by
  simp only [ok, Bool.and_eq_true, Bool.or_eq_true, decide_eq_true_eq] at ho
  obtain ⟨_, ho⟩ := ho
  have hev : ∀ env, Expr.eval env (.term c v) = c * v.eval env := fun env => by simp [Expr.eval]
  by_cases h1 : c = 1
  · subst h1
    have he : ∀ env, v.eval env = Expr.eval env (.term 1 v) := fun env => by rw [hev, one_mul]
    refine ⟨?_, ?_, ?_⟩
    · rw [term_one]; exact (operand_pv h).congr he
    · intro hm
      rw [term_one]
      exact (operand_mul h (by simpa [isMul] using hm)).congr he
    · intro hp hm
      rw [term_one]
      exact (operand_pure h (by simpa [isPure] using hp)).congr he
  · by_cases h2 : c = -1
    · subst h2
      have he : ∀ env, - v.eval env = Expr.eval env (.term (-1) v) := fun env => by rw [hev]; ring
      have hM : Mul (printExpr (.term (-1) v)) (fun env => Expr.eval env (.term (-1) v)) := by
        rw [term_neg]
        refine (operand_mul h ?_).neg.congr he
        rcases ho with ho | ho
        · exact Or.inl ho
        · rcases ho.1 with ho | ho
          · omega
          · exact Or.inr ho.1
      refine ⟨hM.pv.lift (by omega), fun _ => hM, ?_⟩
      intro hp _
      rw [term_neg]
      exact (operand_pure h (by simpa [isPure] using hp)).neg.congr he
    · have hp : Pure (parens (group v) (printExpr v)) (fun env => v.eval env) := by
        refine operand_pure h ?_
        rcases ho with ho | ho
        · exact Or.inl ho
        · rcases ho.1 with ho | ho
          · exact absurd ho h1
          · rcases ho.2 with h3 | h3
            · exact absurd h3 h2
            · exact Or.inr ⟨ho.1, h3⟩
      have hM : Mul (printExpr (.term c v)) (fun env => Expr.eval env (.term c v)) := by
        rw [term_coef h1 h2]
        exact (mul_star (printInt_pv c) hp).congr fun env => (hev env).symm
      refine ⟨hM.pv.lift (by omega), fun _ => hM, fun _ _ => ?_⟩
      rw [term_coef h1 h2]
      exact (pure_star (printInt_pv c) hp).congr fun env => (hev env).symm

/-- A negative term of a sum is a minus sign and a product. -/
theorem neg_term {e : Expr} (ht : isTerm e = true) (hc : coef e < 0) (ho : ok e = true)
    (hp : ∀ c v, e = .term c v → Printed v) :
    ∃ q, printExpr e = .minus :: q ∧ PV 2 q (fun env => - e.eval env) := by
  match e, ht, hc, ho, hp with
  | .cst c, _, hc, _, _ =>
    simp only [coef] at hc
    refine ⟨[.num c.natAbs], by simp [printExpr, printInt, hc], ?_⟩
    exact ⟨.num c.natAbs, .lift (by omega) (.lift (by omega) (.num _)), fun env => by
      simp only [CExpr.eval, Expr.eval]; omega, rfl⟩
  | .term c v, _, hc, ho, hp =>
    have h := hp c v rfl
    simp only [coef] at hc
    simp only [ok, Bool.and_eq_true, Bool.or_eq_true, decide_eq_true_eq] at ho
    obtain ⟨_, ho⟩ := ho
    by_cases h2 : c = -1
    · subst h2
      refine ⟨_, term_neg, ?_⟩
      refine ((operand_mul h ?_).pv).congr fun env => by simp [Expr.eval]
      rcases ho with ho | ho
      · exact Or.inl ho
      · rcases ho.1 with ho | ho
        · omega
        · exact Or.inr ho.1
    · have hp : Pure (parens (group v) (printExpr v)) (fun env => v.eval env) := by
        refine operand_pure h ?_
        rcases ho with ho | ho
        · exact Or.inl ho
        · rcases ho.1 with ho | ho
          · omega
          · rcases ho.2 with h3 | h3
            · exact absurd h3 h2
            · exact Or.inr ⟨ho.1, h3⟩
      refine ⟨.num c.natAbs :: .star :: parens (group v) (printExpr v), ?_, ?_⟩
      · rw [term_coef (by omega) h2]; simp [printInt, hc]
      · have hn : PV 2 [.num c.natAbs] (fun _ => (c.natAbs : Int)) :=
          ⟨.num c.natAbs, .lift (by omega) (.lift (by omega) (.num _)), fun env => rfl, rfl⟩
        refine (hp.star hn).congr fun env => ?_
        have : (c.natAbs : Int) = - c := by omega
        simp only [Expr.eval, this]
        ring

mutual
theorem printed : ∀ e, ok e = true → Printed e
  | .name s, _ => .of1 ⟨.var s, .lift (by omega) (by simpa [printExpr] using Parse.var s), fun env => rfl, rfl⟩
  | .cst c, _ => .of1 (by simpa [printExpr, Expr.eval] using printInt_pv c)
  | .term c v, h => printed_term (printed v (by
      simp only [ok, Bool.and_eq_true] at h; exact h.1)) h
  | .bin .fdiv lhs rhs, h => by
    have hl := printed lhs (by simpa [ok] using h)
    refine .of1 ?_
    have := PV.call2 "floord" rfl (by omega) hl.pv ((printInt_pv rhs).mono (by omega) (by omega))
    rw [printExpr]
    exact (this.mono (by omega) (by omega)).congr fun env => by simp [macroVal, Expr.eval, BinType.eval]
  | .bin .cdiv lhs rhs, h => by
    have hl := printed lhs (by simpa [ok] using h)
    refine .of1 ?_
    have := PV.call2 "ceild" rfl (by omega) hl.pv ((printInt_pv rhs).mono (by omega) (by omega))
    rw [printExpr]
    exact (this.mono (by omega) (by omega)).congr fun env => by simp [macroVal, Expr.eval, BinType.eval]
  | .bin .div lhs rhs, h => by
    have h' : ok lhs = true ∧ (group lhs = true ∨ isMul lhs = true) := by simpa [ok] using h
    have hl := operand_mul (printed lhs h'.1) h'.2
    have hM : Mul (printExpr (.bin .div lhs rhs)) (fun env => Expr.eval env (.bin .div lhs rhs)) := by
      intro n
      rw [printExpr, negs_append]
      refine (PV.bin (o := .div) rfl rfl (hl n) (printInt_pv rhs)).congr fun env => ?_
      simp only [BOp.eval, Expr.eval, BinType.eval]
      rcases sg_cases n with h | h <;> rw [h]
      · simp
      · rw [neg_one_mul, neg_one_mul, Int.neg_tdiv]
    exact ⟨hM.pv.lift (by omega), fun _ => hM, fun h => by simp [isPure] at h⟩
  | .bin .mod lhs rhs, h => by
    have h' : ok lhs = true ∧ (group lhs = true ∨ isMul lhs = true) := by simpa [ok] using h
    have hl := operand_mul (printed lhs h'.1) h'.2
    have hM : Mul (printExpr (.bin .mod lhs rhs)) (fun env => Expr.eval env (.bin .mod lhs rhs)) := by
      intro n
      rw [printExpr, negs_append]
      refine (PV.bin (o := .mod) rfl rfl (hl n) (printInt_pv rhs)).congr fun env => ?_
      simp only [BOp.eval, Expr.eval, BinType.eval]
      rcases sg_cases n with h | h <;> rw [h]
      · simp
      · rw [neg_one_mul, neg_one_mul, Int.neg_tmod]
    exact ⟨hM.pv.lift (by omega), fun _ => hM, fun h => by simp [isPure] at h⟩
  | .red t [], h => by simp [ok] at h
  | .red .sum [e], h => by
    have hl := printed e (by simpa [ok, okTail] using h)
    have hx : printExpr (.red .sum [e]) = printExpr e := by simp [printExpr, printSum]
    have hv : ∀ env, e.eval env = Expr.eval env (.red .sum [e]) := fun env => by
      simp [Expr.eval, evalList, RedType.eval]
    exact ⟨hx ▸ hl.pv.congr hv, fun hm => hx ▸ (hl.mul (by simpa [isMul] using hm)).congr hv,
      fun hp hm => hx ▸ (hl.pure (by simpa [isPure] using hp) (by simpa [isMul] using hm)).congr hv⟩
  | .red .sum (e :: e2 :: es), h => by
    have h' : ok e = true ∧ okTail (e2 :: es) = true := by simpa [ok] using h
    have hl := printed e h'.1
    have := printed_sum (e2 :: es) h'.2 _ _ hl.pv
    refine ⟨?_, fun h => by simp [isMul] at h, fun h => by simp [isPure] at h⟩
    rw [printExpr]
    exact this.congr fun env => by simp [Expr.eval, evalList, RedType.eval]
  | .red .min [e], h => by
    have hl := printed e (by simpa [ok, oks] using h)
    have hx : printExpr (.red .min [e]) = printExpr e := by simp [printExpr, printMM]
    have hv : ∀ env, e.eval env = Expr.eval env (.red .min [e]) := fun env => by
      simp [Expr.eval, evalList, RedType.eval]
    exact ⟨hx ▸ hl.pv.congr hv, fun hm => hx ▸ (hl.mul (by simpa [isMul] using hm)).congr hv,
      fun hp hm => hx ▸ (hl.pure (by simpa [isPure] using hp) (by simpa [isMul] using hm)).congr hv⟩
  | .red .max [e], h => by
    have hl := printed e (by simpa [ok, oks] using h)
    have hx : printExpr (.red .max [e]) = printExpr e := by simp [printExpr, printMM]
    have hv : ∀ env, e.eval env = Expr.eval env (.red .max [e]) := fun env => by
      simp [Expr.eval, evalList, RedType.eval]
    exact ⟨hx ▸ hl.pv.congr hv, fun hm => hx ▸ (hl.mul (by simpa [isMul] using hm)).congr hv,
      fun hp hm => hx ▸ (hl.pure (by simpa [isPure] using hp) (by simpa [isMul] using hm)).congr hv⟩
  | .red .min (e :: e2 :: es), h => by
    have h' : ok e = true ∧ ok e2 = true ∧ oks es = true := by simpa [ok, oks] using h
    refine .of1 ?_
    have := printed_mm .min es h'.2.2 _ _
      ((PV.call2 (mmName .min) rfl (by omega) (printed e h'.1).pv (printed e2 h'.2.1).pv))
    have hx : printExpr (.red .min (e :: e2 :: es)) = (List.replicate es.length [Tok.id (mmName .min), Tok.lpar]).flatten
        ++ (.id (mmName .min) :: .lpar :: (printExpr e ++ .comma :: (printExpr e2 ++ [.rpar]))) ++ printMM es := by
      rw [printExpr, printMM, List.length_cons, List.replicate_succ']
      simp
      simp
    rw [hx]
    refine (this.lift (by omega)).congr fun env => ?_
    rw [mmOp_eval]
    simp only [Expr.eval, evalList]
    rw [red_fold (by simp), List.foldl_cons]
  | .red .max (e :: e2 :: es), h => by
    have h' : ok e = true ∧ ok e2 = true ∧ oks es = true := by simpa [ok, oks] using h
    refine .of1 ?_
    have := printed_mm .max es h'.2.2 _ _
      ((PV.call2 (mmName .max) rfl (by omega) (printed e h'.1).pv (printed e2 h'.2.1).pv))
    have hx : printExpr (.red .max (e :: e2 :: es)) = (List.replicate es.length [Tok.id (mmName .max), Tok.lpar]).flatten
        ++ (.id (mmName .max) :: .lpar :: (printExpr e ++ .comma :: (printExpr e2 ++ [.rpar]))) ++ printMM es := by
      rw [printExpr, printMM, List.length_cons, List.replicate_succ']
      simp
      simp
    rw [hx]
    refine (this.lift (by omega)).congr fun env => ?_
    rw [mmOp_eval]
    simp only [Expr.eval, evalList]
    rw [red_fold (by simp), List.foldl_cons]
theorem printed_sum : ∀ es, okTail es = true → ∀ acc f, PV 3 acc f →
    PV 3 (acc ++ printSum es) (fun env => f env + (evalList env es).foldr (· + ·) 0)
  | [], _ => fun acc f h => by simpa [printSum, evalList] using h
  | e :: es, h => fun acc f hacc => by
    have h' : ((ok e = true ∧ isTerm e = true) ∧ coef e ≠ 0) ∧ okTail es = true := by
      simpa [okTail] using h
    obtain ⟨⟨⟨h1, h2⟩, h3⟩, h5⟩ := h'
    have he := printed e h1
    rw [printSum, ← List.append_assoc]
    by_cases hc : 0 < coef e
    · have := hacc.plus he.pv
      simp only [hc, if_true, List.cons_append, List.nil_append]
      exact (printed_sum es h5 _ _ this).congr fun env => by
        simp only [evalList, List.foldr_cons]; ring
    · obtain ⟨q, hq, hv⟩ := neg_term h2 (by omega) h1 (fun c v hcv => printed v (by
        subst hcv
        simp only [ok, Bool.and_eq_true] at h1; exact h1.1))
      have := PV.bin (t := .minus) (o := .sub) rfl rfl hacc hv
      simp only [hc, if_false, List.nil_append, hq]
      exact (printed_sum es h5 _ _ this).congr fun env => by
        simp only [BOp.eval, evalList, List.foldr_cons]; ring
theorem printed_mm (t : RedType) : ∀ es, oks es = true → ∀ acc f, PV 0 acc f →
    PV 0 ((List.replicate es.length [Tok.id (mmName t), Tok.lpar]).flatten ++ acc ++ printMM es)
      (fun env => (evalList env es).foldl (mmOp t) (f env))
  | [], _ => fun acc f h => by simpa [printMM, evalList] using h
  | e :: es, h => fun acc f hacc => by
    have h' : ok e = true ∧ oks es = true := by simpa [oks] using h
    have := PV.call2 (mmName t) (by cases t <;> rfl) (by omega) (hacc.mono (by omega) (by omega)) (printed e h'.1).pv
    have := printed_mm t es h'.2 _ _ this
    rw [printMM, List.length_cons, List.replicate_succ']
    refine PV.congr (f := fun env => (evalList env es).foldl (mmOp t) (macroVal (mmName t) [f env, e.eval env]))
      ?_ ?_
    · simpa using this
    · intro env
      simp only [evalList, List.foldl_cons, mmOp_eval]
end

end Verif.PExpr
