import Verif.Lemmas.FExpr
import Verif.Lemmas.PClast

/-!
# C75: printed expressions read as Fortran
-/

namespace Verif.Props.Fortran
open Verif.CText Verif.Clast Verif.ClastGen Verif.PPrint Verif.PText Verif.PLex Verif.PExpr Verif.PGlue Verif.FText
open Verif.FReal Verif.FExpr Verif.IntOps Verif.Props.PText

/-! ## Which expressions -/

/-- Class of an operand, given whether it is put in parentheses and its class without them. -/
def opLev (g : Bool) (k : Nat) : Nat := if g then (if k ≤ 3 then 0 else 4) else k

/-- Class of a coefficient with an operand. -/
def termLev (c : Int) (k : Nat) : Nat :=
  if c = 1 then k
  else if c = -1 then (if k ≤ 1 then 2 else 4)
  else if k = 0 then (if c < 0 then 2 else 1) else 4

/-- Class of a quotient. -/
def divLev (k : Nat) : Nat := if k ≤ 1 then 1 else if k = 2 then 2 else 4

mutual
/-- How the text of an expression can be used in Fortran: 0 as a primary, 1 as a product, 2 as a minus sign
    and a product, 3 as an expression, 4 not at all. -/
def lev : Expr → Nat
  | .name _ => 0
  | .cst c => if c < 0 then 2 else 0
  | .term c v => termLev c (opLev (group v) (lev v))
  | .bin .div l r => if 0 < r then divLev (opLev (group l) (lev l)) else 4
  | .bin _ l r => if 0 < r ∧ lev l ≤ 3 then 0 else 4
  | .red _ [] => 4
  | .red _ [e] => lev e
  | .red .sum (e :: es) => if lev e ≤ 3 ∧ levSum es = true then 3 else 4
  | .red _ (e :: es) => if lev e ≤ 3 ∧ levOps es = true then 0 else 4
/-- The terms of a sum after the first: added terms without a sign, others with one. -/
def levSum : List Expr → Bool
  | [] => true
  | e :: es => decide ((0 < coef e ∧ lev e ≤ 1) ∨ (coef e < 0 ∧ lev e = 2)) && levSum es
/-- All can be used as an expression. -/
def levOps : List Expr → Bool
  | [] => true
  | e :: es => decide (lev e ≤ 3) && levOps es
end

mutual
/-- Divisions that are done with reals have operands of at most `2 ^ p`. -/
def Small (p : Nat) (env : Env) : Expr → Prop
  | .name _ => True
  | .cst _ => True
  | .term _ v => Small p env v
  | .bin t l r => Small p env l ∧ (t = .fdiv ∨ t = .cdiv → |l.eval env| ≤ 2 ^ p ∧ r ≤ 2 ^ p)
  | .red _ es => Smalls p env es
/-- The same for lists. -/
def Smalls (p : Nat) (env : Env) : List Expr → Prop
  | [] => True
  | e :: es => Small p env e ∧ Smalls p env es
end

/-! ## Texts -/

/-- Characters of a class. -/
def GoodC (k : Nat) (cs : List Char) (S : Nat → Env → Prop) (f : Env → Int) : Prop :=
  ∃ ps, text ps = cs ∧ Good k ps S f

/-- What is shown of an expression. -/
def Shows (e : Expr) : Prop :=
  GoodC (lev e) (exprC .fortran e) (fun p env => Small p env e) (fun env => e.eval env)

theorem GoodC.bad {k : Nat} (hk : 3 < k) (cs : List Char) (S : Nat → Env → Prop) (f : Env → Int)
    (h : ∃ ps, text ps = cs) : GoodC k cs S f := by
  obtain ⟨ps, h⟩ := h
  match k, hk with
  | _ + 4, _ => exact ⟨ps, h, trivial⟩

/-- Any characters are the text of a white space, however odd. -/
theorem any_text (cs : List Char) : ∃ ps, text ps = cs := ⟨[.ws cs], by simp [text, Piece.chars]⟩

theorem bad4 (cs : List Char) (S : Nat → Env → Prop) (f : Env → Int) : GoodC 4 cs S f :=
  GoodC.bad (by omega) cs S f (any_text cs)

theorem GoodC.mono {k : Nat} {cs : List Char} {S S' : Nat → Env → Prop} {f g : Env → Int} (h : GoodC k cs S f)
    (hs : ∀ p env, S' p env → S p env) (hf : ∀ env, f env = g env) : GoodC k cs S' g := by
  obtain ⟨ps, h1, h2⟩ := h
  exact ⟨ps, h1, h2.mono hs hf⟩

theorem intC_pos {r : Int} (h : 0 ≤ r) : intC r = text [.tok (.num r.toNat)] := by
  have : r.natAbs = r.toNat := by omega
  unfold intC
  rw [if_neg (by omega), this]
  simp [text, Piece.chars, spell]

theorem intC_neg {r : Int} (h : r < 0) : intC r = text [.tok .minus, .tok (.num (-r).toNat)] := by
  have : r.natAbs = (-r).toNat := by omega
  unfold intC
  rw [if_pos h, this]
  simp [text, Piece.chars, spell]

theorem cst_good (c : Int) (S : Nat → Env → Prop) : GoodC (if c < 0 then 2 else 0) (intC c) S (fun _ => c) := by
  by_cases h : c < 0
  · rw [if_pos h, intC_neg h]
    refine ⟨_, rfl, ?_⟩
    exact (((Good.num (-c).toNat S).prod (by omega)).neg).mono (fun _ _ h => h) (fun _ => by omega)
  · rw [if_neg h, intC_pos (by omega)]
    exact ⟨_, rfl, (Good.num c.toNat S).mono (fun _ _ h => h) (fun _ => by omega)⟩

theorem paren_good {g : Bool} {k : Nat} {cs : List Char} {S : Nat → Env → Prop} {f : Env → Int} (h : GoodC k cs S f) :
    GoodC (opLev g k) (parenC g cs) S f := by
  unfold opLev parenC
  cases g with
  | false => exact h
  | true =>
    simp only [if_true]
    split
    · rename_i hk
      obtain ⟨ps, h1, h2⟩ := h
      refine ⟨_, ?_, (h2.exp hk).paren⟩
      rw [text_cons, text_append, h1]
      simp [text, Piece.chars, spell]
    · exact bad4 _ _ _

theorem term_good (c : Int) {k : Nat} {cs : List Char} {S : Nat → Env → Prop} {f : Env → Int} (h : GoodC k cs S f) :
    GoodC (termLev c k) (coefC c ++ cs) S (fun env => c * f env) := by
  unfold termLev coefC
  by_cases h1 : c = 1
  · subst h1
    simp only [if_true, List.nil_append]
    exact h.mono (fun _ _ h => h) (fun _ => by omega)
  · rw [if_neg h1, if_neg h1]
    obtain ⟨ps, rfl, h2⟩ := h
    by_cases h3 : c = -1
    · subst h3
      simp only [if_true]
      split
      · rename_i hk
        refine ⟨.tok .minus :: ps, ?_, ((h2.prod hk).neg).mono (fun _ _ h => h) (fun _ => by omega)⟩
        simp [text_cons, Piece.chars, spell]
      · exact bad4 _ _ _
    · rw [if_neg h3, if_neg h3]
      split
      · rename_i hk
        subst hk
        split
        · rename_i hc
          refine ⟨.tok .minus :: .tok (.num (-c).toNat) :: .tok .star :: ps, ?_, ?_⟩
          · rw [intC_neg hc]
            simp [text, Piece.chars, spell]
          · refine (Good.mulNum (-c).toNat h2).neg.mono (fun _ _ h => h) (fun env => ?_)
            have : ((-c).toNat : Int) = -c := by omega
            rw [this, Int.neg_mul, Int.neg_neg]
        · rename_i hc
          refine ⟨.tok (.num c.toNat) :: .tok .star :: ps, ?_, ?_⟩
          · rw [intC_pos (by omega)]
            simp [text, Piece.chars, spell]
          · refine (Good.mulNum c.toNat h2).mono (fun _ _ h => h) (fun env => ?_)
            have : (c.toNat : Int) = c := by omega
            rw [this]
      · exact bad4 _ _ _

theorem div_good {g : Bool} {r : Int} (hr : 0 < r) {k : Nat} {cs : List Char} {S : Nat → Env → Prop} {f : Env → Int}
    (h : GoodC k cs S f) : GoodC (divLev (opLev g k))
      ((binC .fortran .div g).1 ++ (cs ++ ((binC .fortran .div g).2.1 ++ (intC r ++ (binC .fortran .div g).2.2)))) S
      (fun env => (f env).tdiv r) := by
  have e : (binC .fortran .div g).1 ++ (cs ++ ((binC .fortran .div g).2.1 ++ (intC r ++ (binC .fortran .div g).2.2))) =
      parenC g cs ++ ('/' :: intC r) := by
    cases g <;> simp [binC, parenC]
  rw [e]
  obtain ⟨ps, hp, h2⟩ := paren_good (g := g) h
  rw [← hp]
  have ht : text (ps ++ .tok .slash :: [.tok (.num r.toNat)]) = text ps ++ ('/' :: intC r) := by
    rw [text_append, intC_pos (by omega)]
    simp [text, Piece.chars, spell]
  have hr' : ((r.toNat : Nat) : Int) = r := by omega
  unfold divLev
  split
  · rename_i hk
    refine ⟨_, ht, ((h2.prod hk).divNum (n := r.toNat) (by omega)).mono (fun _ _ h => h) (fun env => by rw [hr'])⟩
  · split
    · rename_i hk
      rw [hk] at h2
      exact ⟨_, ht, (h2.divNeg (n := r.toNat) (by omega)).mono (fun _ _ h => h) (fun env => by rw [hr'])⟩
    · exact bad4 _ _ _

theorem text_tok (t : Tok) (ps : List Piece) : text (.tok t :: ps) = spell t ++ text ps := rfl

theorem floor_good {l : Expr} {r : Int} (hr : 0 < r) (hl : lev l ≤ 3) (h : Shows l) :
    GoodC 0 (exprC .fortran (.bin .fdiv l r)) (fun p env => Small p env (.bin .fdiv l r))
      (fun env => (Expr.bin .fdiv l r).eval env) := by
  obtain ⟨ps, h1, h2⟩ := h
  have hr' : ((r.toNat : Nat) : Int) = r := by omega
  refine ⟨_, ?_, ((h2.exp hl).floor (n := r.toNat) (by omega)).mono ?_ ?_⟩
  · rw [exprC, ← h1, intC_pos (by omega)]
    simp [quotP, text_append, text_tok, spell, binC, lit_eq, show text [] = [] from rfl]
  · intro p env h
    exact ⟨h.1, by rw [hr']; exact h.2 (Or.inl rfl)⟩
  · intro env
    rw [hr']
    exact (floord_eq _ _ hr).symm

theorem ceil_good {l : Expr} {r : Int} (hr : 0 < r) (hl : lev l ≤ 3) (h : Shows l) :
    GoodC 0 (exprC .fortran (.bin .cdiv l r)) (fun p env => Small p env (.bin .cdiv l r))
      (fun env => (Expr.bin .cdiv l r).eval env) := by
  obtain ⟨ps, h1, h2⟩ := h
  have hr' : ((r.toNat : Nat) : Int) = r := by omega
  refine ⟨_, ?_, ((h2.exp hl).ceil (n := r.toNat) (by omega)).mono ?_ ?_⟩
  · rw [exprC, ← h1, intC_pos (by omega)]
    simp [quotP, text_append, text_tok, spell, binC, lit_eq, show text [] = [] from rfl]
  · intro p env h
    exact ⟨h.1, by rw [hr']; exact h.2 (Or.inr rfl)⟩
  · intro env
    rw [hr']
    exact (ceild_eq _ _ hr).symm

theorem mod_good {l : Expr} {r : Int} (hr : 0 < r) (hl : lev l ≤ 3) (h : Shows l) :
    GoodC 0 (exprC .fortran (.bin .mod l r)) (fun p env => Small p env (.bin .mod l r))
      (fun env => (Expr.bin .mod l r).eval env) := by
  obtain ⟨ps, h1, h2⟩ := h
  have hr' : ((r.toNat : Nat) : Int) = r := by omega
  refine ⟨_, ?_, ((h2.exp hl).mod (n := r.toNat) (by omega)).mono ?_ ?_⟩
  · rw [exprC, ← h1, intC_pos (by omega)]
    simp [modP, text_append, text_tok, spell, binC, lit_eq, text_cons, Piece.chars, show text [] = [] from rfl]
  · intro p env h
    exact h.1
  · intro env
    rw [hr']
    rfl

/-! ## Reductions -/

/-- Texts of the further operands of a minimum or maximum. -/
structure Ops (qs : List Piece) (ts : List CExpr) (S : Nat → Env → Prop) (f : Env → List Int) : Prop where
  glue : ∀ a rest, post a = true → (∀ a, post a = true → sepFrom (some a) rest) → sepFrom (some a) (qs ++ rest)
  parse : ∀ us t r, IsExp us t → Args (us ++ (tokens qs ++ .rpar :: r)) (t :: ts) (.rpar :: r)
  val : ∀ p rnd env, Nearest p rnd → S p (cenv env) → values rnd env ts = some ((f (cenv env)).map .int)

theorem Ops.nil (S : Nat → Env → Prop) : Ops [] [] S (fun _ => []) where
  glue a rest ha h := h a ha
  parse us t r h := .one (h.whole (Or.inr (Or.inl ⟨r, rfl⟩))) (by simp)
  val _ _ _ _ _ := rfl

theorem Ops.cons {ps qs : List Piece} {ts : List CExpr} {S S' : Nat → Env → Prop} {v : Env → Int} {f : Env → List Int}
    (h : Good 3 ps S v) (g : Ops qs ts S' f) : ∃ ts', Ops (.tok .comma :: (ps ++ qs)) ts'
      (fun p env => S p env ∧ S' p env) (fun env => v env :: f env) := by
  obtain ⟨h1, t, h2, h3⟩ := h
  refine ⟨t :: ts, ?_, ?_, ?_⟩
  · intro a rest ha hr
    refine ⟨rfl, fun a' ha' => by cases ha'; exact sep_after ha rfl, ?_⟩
    show sepFrom (some .comma) ((ps ++ qs) ++ rest)
    rw [List.append_assoc]
    exact h1 _ _ (fun a ha => by cases ha; exact ⟨rfl, fun _ => by simp⟩) (fun a ha => g.glue a rest ha hr)
  · intro us t' r hu
    rw [tokens_cons, tokens_app]
    refine .cons (r := tokens ps ++ (tokens qs ++ .rpar :: r)) ?_ (g.parse _ _ _ h2)
    have := hu.whole (rest := .comma :: (tokens ps ++ (tokens qs ++ .rpar :: r))) (Or.inr (Or.inr ⟨_, rfl⟩))
    simpa using this
  · intro p rnd env hn hs
    simp only [values, h3 p rnd env hn hs.1, g.val p rnd env hn hs.2, Option.bind_some, Option.map_some, List.map_cons]

/-- The name of a minimum or maximum. -/
def fname : RedType → String
  | .max => "MAX"
  | _ => "MIN"

theorem ints_map : ∀ l : List Int, ints (l.map .int) = some l
  | [] => rfl
  | a :: l => by simp [ints, ints_map l]

theorem fold_mm {t : RedType} (ht : t ≠ .sum) : ∀ (l : List Int) (a : Int),
    l.foldl (mmOp t) a = l.foldl (if t = .max then max else min) a
  | [], _ => rfl
  | b :: l, a => by
    have : mmOp t a b = (if t = .max then max else min) a b := by
      cases t <;> first | exact absurd rfl ht | (simp only [mmOp, cmin, cmax]; simp; split <;> omega)
    rw [List.foldl_cons, List.foldl_cons, this, fold_mm ht l]

theorem mm_good {t : RedType} (ht : t ≠ .sum) {ps qs : List Piece} {ts : List CExpr} {S S' : Nat → Env → Prop}
    {v : Env → Int} {f : Env → List Int} (h : Good 3 ps S v) (g : Ops qs ts S' f) (hf : ∀ env, f env ≠ []) :
    Good 0 (.tok (.id (fname t)) :: .tok .lpar :: ((ps ++ qs) ++ [.tok .rpar])) (fun p env => S p env ∧ S' p env)
      (fun env => t.eval (v env :: f env)) := by
  obtain ⟨h1, u, h2, h3⟩ := h
  have hid : ident (fname t) = true := by cases t <;> decide +kernel
  refine ⟨?_, .call (fname t) (u :: ts), ?_, ?_⟩
  · refine GP.call hid (b := true) ?_
    intro prev rest ha hr
    rw [List.append_assoc]
    exact h1 _ _ ha (fun a ha => g.glue a rest ha hr)
  · intro rest hr
    rw [tokens_cons, tokens_cons, tokens_app, tokens_app]
    refine .call ?_
    have := g.parse _ _ rest h2
    simpa [tokens] using this
  · intro p rnd env hn hs
    simp only [value, values, h3 p rnd env hn hs.1, g.val p rnd env hn hs.2, Option.bind_some, Option.map_some]
    have e : ints (Val.int (v (cenv env)) :: (f (cenv env)).map .int) = some (v (cenv env) :: f (cenv env)) :=
      ints_map (v (cenv env) :: f (cenv env))
    rw [red_fold ht, fold_mm ht]
    have hx : ∀ o, extremum o (v (cenv env) :: f (cenv env)) = some (.int ((f (cenv env)).foldl o (v (cenv env)))) := by
      intro o
      cases hl : f (cenv env) with
      | nil => exact absurd hl (hf _)
      | cons b l => rfl
    cases t with
    | sum => exact absurd rfl ht
    | max => simp [callVal, fname, e, hx]
    | min => simp [callVal, fname, e, hx]

theorem sum_eval_cons (env : Env) (e : Expr) (es : List Expr) :
    (Expr.red .sum (e :: es)).eval env = e.eval env + (Expr.red .sum es).eval env := by
  simp [Expr.eval, evalList, RedType.eval]

/-- A sum with its first terms read. -/
theorem sum_step {cs : List Char} {S : Nat → Env → Prop} {f : Env → Int} (h : GoodC 3 cs S f) {e : Expr}
    (he : Shows e) (hl : (0 < coef e ∧ lev e ≤ 1) ∨ (coef e < 0 ∧ lev e = 2)) :
    GoodC 3 (cs ++ ((if 0 < coef e then ['+'] else []) ++ exprC .fortran e)) (fun p env => S p env ∧ Small p env e)
      (fun env => f env + e.eval env) := by
  obtain ⟨ps, rfl, h2⟩ := h
  obtain ⟨qs, hq, g2⟩ := he
  rw [← hq]
  rcases hl with ⟨h1, h3⟩ | ⟨h1, h3⟩
  · rw [if_pos h1]
    refine ⟨ps ++ .tok .plus :: qs, ?_, h2.add (g2.prod h3)⟩
    rw [text_append, text_tok]
    rfl
  · rw [if_neg (by omega)]
    rw [h3] at g2
    exact ⟨ps ++ qs, by rw [text_append]; rfl, h2.sub g2⟩

theorem sum_tail : ∀ (es : List Expr), (∀ e ∈ es, Shows e) → levSum es = true → ∀ (cs : List Char)
    (S : Nat → Env → Prop) (f : Env → Int), GoodC 3 cs S f →
    GoodC 3 (cs ++ sumC .fortran es) (fun p env => S p env ∧ Smalls p env es)
      (fun env => f env + (Expr.red .sum es).eval env)
  | [], _, _, cs, S, f, h => by
    rw [sumC, List.append_nil]
    exact h.mono (fun _ _ h => h.1) (fun env => by simp [Expr.eval, evalList, RedType.eval])
  | e :: es, he, hl, cs, S, f, h => by
    simp only [levSum, Bool.and_eq_true, decide_eq_true_eq] at hl
    have h1 := sum_step h (he e (by simp)) hl.1
    have h2 := sum_tail es (fun x hx => he x (by simp [hx])) hl.2 _ _ _ h1
    rw [sumC]
    rw [List.append_assoc, List.append_assoc] at h2
    exact h2.mono (fun p env h => ⟨⟨h.1, h.2.1⟩, h.2.2⟩) (fun env => by rw [sum_eval_cons]; omega)

theorem ops_good : ∀ (es : List Expr), (∀ e ∈ es, Shows e) → levOps es = true →
    ∃ qs ts, text qs = opsC .fortran es ∧ Ops qs ts (fun p env => Smalls p env es) (fun env => evalList env es)
  | [], _, _ => ⟨[], [], rfl, Ops.nil _⟩
  | e :: es, he, hl => by
    simp only [levOps, Bool.and_eq_true, decide_eq_true_eq] at hl
    obtain ⟨qs, ts, h1, h2⟩ := ops_good es (fun x hx => he x (by simp [hx])) hl.2
    obtain ⟨ps, g1, g2⟩ := he e (by simp)
    obtain ⟨ts', h3⟩ := Ops.cons (g2.exp hl.1) h2
    refine ⟨_, ts', ?_, h3⟩
    rw [text_tok, text_append, h1, g1, opsC]
    simp [spell, mmAfter]

theorem red_mm_good {t : RedType} (ht : t ≠ .sum) {e e2 : Expr} {es : List Expr} (he : ∀ x ∈ e :: e2 :: es, Shows x)
    (hl : lev e ≤ 3) (hls : levOps (e2 :: es) = true) :
    GoodC 0 (exprC .fortran (.red t (e :: e2 :: es))) (fun p env => Small p env (.red t (e :: e2 :: es)))
      (fun env => (Expr.red t (e :: e2 :: es)).eval env) := by
  obtain ⟨qs, ts, h1, h2⟩ := ops_good (e2 :: es) (fun x hx => he x (by simp [hx])) hls
  obtain ⟨ps, g1, g2⟩ := he e (by simp)
  refine ⟨_, ?_, (mm_good ht (g2.exp hl) h2 (fun env => by simp [evalList])).mono ?_ (fun env => rfl)⟩
  · have ex : exprC .fortran (.red t (e :: e2 :: es)) = mmOpen .fortran t (e2 :: es).length ++
        (exprC .fortran e ++ (opsC .fortran (e2 :: es) ++ mmClose .fortran (e2 :: es).length)) := by
      cases t <;> first | exact absurd rfl ht | rfl
    rw [ex, text_tok, text_tok, text_append, text_append, g1, h1]
    cases t <;> first | exact absurd rfl ht | simp [mmOpen, mmClose, mmC, fname, lit_eq, spell, text, Piece.chars]
  · intro p env h
    exact h

mutual
theorem shows_all : ∀ e, idents e = true → Shows e
  | .name s, h => by
    refine ⟨[.tok (.id s)], ?_, Good.var (by simpa [idents] using h) _⟩
    simp [text, Piece.chars, spell, exprC]
  | .cst c, _ => by
    unfold Shows
    rw [lev, exprC]
    exact cst_good c _
  | .term c v, h => by
    unfold Shows
    rw [lev, exprC]
    exact (term_good c (paren_good (g := group v) (shows_all v (by simpa [idents] using h)))).mono
      (fun p env h => h) (fun env => rfl)
  | .bin .fdiv l r, h => by
    unfold Shows
    rw [lev]
    · split
      · rename_i hc
        exact floor_good hc.1 hc.2 (shows_all l (by simpa [idents] using h))
      · exact bad4 _ _ _
    · simp
  | .bin .cdiv l r, h => by
    unfold Shows
    rw [lev]
    · split
      · rename_i hc
        exact ceil_good hc.1 hc.2 (shows_all l (by simpa [idents] using h))
      · exact bad4 _ _ _
    · simp
  | .bin .mod l r, h => by
    unfold Shows
    rw [lev]
    · split
      · rename_i hc
        exact mod_good hc.1 hc.2 (shows_all l (by simpa [idents] using h))
      · exact bad4 _ _ _
    · simp
  | .bin .div l r, h => by
    unfold Shows
    rw [lev, exprC]
    split
    · rename_i hc
      exact (div_good (g := group l) hc (shows_all l (by simpa [idents] using h))).mono
        (fun p env h => h.1) (fun env => rfl)
    · exact bad4 _ _ _
  | .red t [], _ => by
    unfold Shows
    rw [lev]
    exact bad4 _ _ _
  | .red t [e], h => by
    have hs := shows_all e (by simpa [idents, identss] using h)
    unfold Shows
    have e1 : lev (.red t [e]) = lev e := by rw [lev]
    have e2 : exprC .fortran (.red t [e]) = exprC .fortran e := by
      cases t <;> simp [exprC, sumC, opsC, mmOpen, mmClose]
    rw [e1, e2]
    refine hs.mono (fun p env h => h.1) (fun env => ?_)
    cases t <;> simp [Expr.eval, evalList, RedType.eval]
  | .red .sum (e :: e2 :: es), h => by
    have he := shows_list (e :: e2 :: es) (by simpa [idents] using h)
    unfold Shows
    have e1 : lev (.red .sum (e :: e2 :: es)) = if lev e ≤ 3 ∧ levSum (e2 :: es) = true then 3 else 4 := by
      rw [lev]; simp
    rw [e1]
    split
    · rename_i hc
      obtain ⟨ps, h1, h2⟩ := he e (by simp)
      have := sum_tail (e2 :: es) (fun x hx => he x (by simp [hx])) hc.2 _ _ _ ⟨ps, h1, h2.exp hc.1⟩
      have ex : exprC .fortran (.red .sum (e :: e2 :: es)) = exprC .fortran e ++ sumC .fortran (e2 :: es) := by
        rw [exprC]
      rw [ex]
      exact this.mono (fun p env h => h) (fun env => (sum_eval_cons env e (e2 :: es)).symm)
    · exact bad4 _ _ _
  | .red .min (e :: e2 :: es), h => by
    have he := shows_list (e :: e2 :: es) (by simpa [idents] using h)
    unfold Shows
    have e1 : lev (.red .min (e :: e2 :: es)) = if lev e ≤ 3 ∧ levOps (e2 :: es) = true then 0 else 4 := by
      rw [lev] <;> simp
    rw [e1]
    split
    · rename_i hc
      exact red_mm_good (by simp) he hc.1 hc.2
    · exact bad4 _ _ _
  | .red .max (e :: e2 :: es), h => by
    have he := shows_list (e :: e2 :: es) (by simpa [idents] using h)
    unfold Shows
    have e1 : lev (.red .max (e :: e2 :: es)) = if lev e ≤ 3 ∧ levOps (e2 :: es) = true then 0 else 4 := by
      rw [lev] <;> simp
    rw [e1]
    split
    · rename_i hc
      exact red_mm_good (by simp) he hc.1 hc.2
    · exact bad4 _ _ _
theorem shows_list : ∀ es, identss es = true → ∀ e ∈ es, Shows e
  | [], _, e, he => by simp at he
  | x :: es, h, e, he => by
    simp only [identss, Bool.and_eq_true] at h
    have hx := shows_all x h.1
    rcases List.mem_cons.1 he with he | he
    · rw [he]; exact hx
    · exact shows_list es h.2 e he
end

/-! ## C75 -/

/-- A text has at most one meaning. -/
theorem means_unique {rnd : ℚ → ℚ} {env : String → Int} {cs : List Char} {v w : Int} (h : Means rnd env cs v)
    (h' : Means rnd env cs w) : v = w := by
  obtain ⟨ts, e, h1, h2, h3⟩ := h
  obtain ⟨ts', e', g1, g2, g3⟩ := h'
  rw [h1] at g1
  cases g1
  obtain ⟨rfl, _⟩ := exp_det h2 g2
  rw [h3] at g3
  simpa using g3

/-- The expression printed for Fortran, read as Fortran, has the value of the expression, and no other, as
long as the operands of the divisions that are done in reals are at most `2 ^ p`. -/
theorem C75_expression_partial (e : Expr) (hl : lev e ≤ 3) (hi : idents e = true) {p : Nat} {rnd : ℚ → ℚ}
    (hr : Nearest p rnd) (env : String → Int) (hs : Small p (fun s => env (fold s)) e) (v : Int) :
    Means rnd env (exprC .fortran e) v ↔ v = e.eval (fun s => env (fold s)) := by
  have key : Means rnd env (exprC .fortran e) (e.eval (fun s => env (fold s))) := by
    obtain ⟨ps, h1, h2⟩ := shows_all e hi
    obtain ⟨g1, t, g2, g3⟩ := h2.exp hl
    refine ⟨tokens ps, t, ?_, ?_, g3 p rnd env hr hs⟩
    · rw [← h1]
      exact lex_text ps none g1.whole
    · have := g2.whole (rest := []) (Or.inl rfl)
      rwa [List.append_nil] at this
  constructor
  · intro h
    exact means_unique h key
  · rintro rfl
    exact key

/-! ### Generated code -/

/-- A term of a sum: an unsigned product to be added, or a product with a minus sign. -/
def signed (e : Expr) : Prop := (0 < coef e ∧ lev e ≤ 1) ∨ (coef e < 0 ∧ lev e = 2)

instance (e : Expr) : Decidable (signed e) := by unfold signed; infer_instance

theorem lev_term {c : Int} {v : Expr} (hv : lev v = 0) : lev (.term c v) = termLev c 0 := by
  rw [lev, hv]
  cases group v <;> rfl

theorem termLev_sign {c : Int} (hc : c ≠ 0) :
    (0 < c ∧ termLev c 0 ≤ 1) ∨ (c < 0 ∧ termLev c 0 = 2) := by
  by_cases h1 : c = 1
  · subst h1; decide
  · by_cases h2 : c = -1
    · subst h2; decide
    · unfold termLev
      rw [if_neg h1, if_neg h2, if_pos rfl]
      by_cases h3 : c < 0
      · rw [if_pos h3]; exact Or.inr ⟨h3, rfl⟩
      · rw [if_neg h3]; exact Or.inl ⟨by omega, by omega⟩

theorem termLev_le (c : Int) : termLev c 0 ≤ 3 := by
  by_cases hc : c = 0
  · subst hc; decide
  · rcases termLev_sign hc with h | h <;> omega

theorem signed_lev {e : Expr} (h : signed e) : lev e ≤ 2 := by
  rcases h with h | h <;> omega

theorem levSum_signed : ∀ {es : List Expr}, (∀ e ∈ es, signed e) → levSum es = true
  | [], _ => rfl
  | e :: es, h => by
    have h1 : ((0 < coef e ∧ lev e ≤ 1) ∨ (coef e < 0 ∧ lev e = 2)) := h e (by simp)
    rw [levSum, levSum_signed (fun x hx => h x (by simp [hx])), decide_eq_true h1]
    rfl

theorem levOps_all : ∀ {es : List Expr}, (∀ e ∈ es, lev e ≤ 3) → levOps es = true
  | [], _ => rfl
  | e :: es, h => by
    have h1 : lev e ≤ 3 := h e (by simp)
    rw [levOps, levOps_all (fun x hx => h x (by simp [hx])), decide_eq_true h1]
    rfl

theorem lev_sum {es : List Expr} (hn : es ≠ []) (h : ∀ e ∈ es, signed e) :
    lev (.red .sum es) ≤ 3 ∧ opLev (group (.red .sum es)) (lev (.red .sum es)) ≤ 2 := by
  match es, hn with
  | [e], _ =>
    have := signed_lev (h e (by simp))
    rw [lev]
    exact ⟨by omega, by simpa [opLev, group] using this⟩
  | e :: e2 :: es, _ =>
    have h1 := signed_lev (h e (by simp))
    have e1 : lev (.red .sum (e :: e2 :: es)) = if lev e ≤ 3 ∧ levSum (e2 :: es) = true then 3 else 4 := by
      rw [lev]; simp
    rw [e1, if_pos ⟨by omega, levSum_signed (fun x hx => h x (by simp [hx]))⟩]
    simp [opLev, group]

theorem lev_mm {t : RedType} (ht : t ≠ .sum) {es : List Expr} (hn : es ≠ []) (h : ∀ e ∈ es, lev e ≤ 3) :
    lev (.red t es) ≤ 3 := by
  match es, hn with
  | [e], _ =>
    rw [lev]
    exact h e (by simp)
  | e :: e2 :: es, _ =>
    have e1 : lev (.red t (e :: e2 :: es)) = if lev e ≤ 3 ∧ levOps (e2 :: es) = true then 0 else 4 := by
      cases t <;> first | exact absurd rfl ht | (rw [lev] <;> simp)
    rw [e1, if_pos ⟨h e (by simp), levOps_all (fun x hx => h x (by simp [hx]))⟩]
    omega

theorem identss_all : ∀ {es : List Expr}, (∀ e ∈ es, idents e = true) → identss es = true
  | [], _ => rfl
  | e :: es, h => by
    rw [identss, h e (by simp), identss_all (fun x hx => h x (by simp [hx]))]
    rfl

theorem divLev_le {k : Nat} (h : k ≤ 2) : divLev k ≤ 3 := by
  unfold divLev
  split
  · omega
  · split <;> omega

open Verif.PClast Verif.PStmt in
/-- What is printed right in Fortran. -/
def fKit : Kit where
  E e := idents e && decide (lev e ≤ 3)
  A e := idents e && decide (lev e = 0)
  T e := idents e && decide (signed e)
  D d := decide (0 < d)
  D_pos h := decide_eq_true h
  A_name h := by simp [idents, lev, name_ident h]
  A_zero := by decide
  T_term {c v} hc h := by
    simp only [Bool.and_eq_true, decide_eq_true_eq] at h ⊢
    refine ⟨by simpa [idents] using h.1, ?_⟩
    unfold signed
    rw [lev_term h.2]
    exact termLev_sign hc
  E_term {c v} h := by
    simp only [Bool.and_eq_true, decide_eq_true_eq] at h ⊢
    refine ⟨by simpa [idents] using h.1, ?_⟩
    rw [lev_term h.2]
    exact termLev_le c
  T_cst {c} hc := by
    simp only [Bool.and_eq_true, decide_eq_true_eq]
    refine ⟨by simp [idents], ?_⟩
    unfold signed
    simp only [coef, lev]
    split <;> omega
  E_cst c := by
    simp only [Bool.and_eq_true, decide_eq_true_eq]
    refine ⟨by simp [idents], ?_⟩
    rw [lev]
    split <;> omega
  E_sum hn h := by
    simp only [Bool.and_eq_true, decide_eq_true_eq] at h ⊢
    exact ⟨by rw [idents]; exact identss_all (fun e he => (h e he).1), (lev_sum hn (fun e he => (h e he).2)).1⟩
  E_fdiv hd h := by
    simp only [Bool.and_eq_true, decide_eq_true_eq] at h hd ⊢
    refine ⟨by simpa [idents] using h.1, ?_⟩
    rw [lev]
    · rw [if_pos ⟨hd, h.2⟩]; omega
    · simp
  E_cdiv hd h := by
    simp only [Bool.and_eq_true, decide_eq_true_eq] at h hd ⊢
    refine ⟨by simpa [idents] using h.1, ?_⟩
    rw [lev]
    · rw [if_pos ⟨hd, h.2⟩]; omega
    · simp
  E_div hd hn h := by
    simp only [Bool.and_eq_true, decide_eq_true_eq] at h hd ⊢
    refine ⟨by rw [idents, idents]; exact identss_all (fun e he => (h e he).1), ?_⟩
    rw [lev, if_pos hd]
    exact divLev_le (lev_sum hn (fun e he => (h e he).2)).2
  E_divc hd := by
    simp only [Bool.and_eq_true, decide_eq_true_eq] at hd ⊢
    refine ⟨by simp [idents], ?_⟩
    rw [lev, if_pos hd]
    refine divLev_le ?_
    simp only [group, opLev, lev]
    simp
    split <;> omega
  E_mod hd hn h := by
    simp only [Bool.and_eq_true, decide_eq_true_eq] at h hd ⊢
    refine ⟨by rw [idents, idents]; exact identss_all (fun e he => (h e he).1), ?_⟩
    rw [lev]
    · rw [if_pos ⟨hd, (lev_sum hn (fun e he => (h e he).2)).1⟩]; omega
    · simp
  A_fdiv hd h := by
    simp only [Bool.and_eq_true, decide_eq_true_eq] at h hd ⊢
    refine ⟨by simpa [idents] using h.1, ?_⟩
    rw [lev]
    · rw [if_pos ⟨hd, h.2⟩]
    · simp
  E_mm ht hn h := by
    simp only [Bool.and_eq_true, decide_eq_true_eq] at h ⊢
    exact ⟨by rw [idents]; exact identss_all (fun e he => (h e he).1), lev_mm ht hn (fun e he => (h e he).2)⟩

mutual
/-- The expressions in a statement: right-hand sides, arguments, both sides of conditions, bounds. -/
def exprs : Stmt → List Expr
  | .ass _ e => [e]
  | .user _ args => args
  | .block body => exprsL body
  | .guard qs body => qs.flatMap (fun q => [q.lhs, q.rhs]) ++ exprsL body
  | .for_ _ lb ub _ body => lb.toList ++ ub.toList ++ exprsL body
/-- Those of a list. -/
def exprsL : List Stmt → List Expr
  | [] => []
  | s :: ss => exprs s ++ exprsL ss
end

theorem kit_O {K : Verif.PClast.Kit} {o : Option Expr} (h : K.O o = true) : ∀ e ∈ o.toList, K.E e = true := by
  cases o with
  | none => simp
  | some x =>
    intro e he
    simp only [Option.toList_some, List.mem_singleton] at he
    rw [he]
    exact h

mutual
theorem exprs_kit {K : Verif.PClast.Kit} {nm : Nat → String} : ∀ s, K.S nm s = true → ∀ e ∈ exprs s, K.E e = true
  | .ass x r, h, e, he => by
    simp only [Verif.PClast.Kit.S, Bool.and_eq_true] at h
    simp only [exprs, List.mem_singleton] at he
    rw [he]
    exact h.2
  | .user k args, h, e, he => by
    simp only [Verif.PClast.Kit.S, Bool.and_eq_true, List.all_eq_true] at h
    simp only [exprs] at he
    exact h.2 e he
  | .block body, h, e, he => by
    simp only [Verif.PClast.Kit.S] at h
    simp only [exprs] at he
    exact exprsL_kit body h e he
  | .guard qs body, h, e, he => by
    simp only [Verif.PClast.Kit.S, Bool.and_eq_true, List.all_eq_true] at h
    simp only [exprs, List.mem_append, List.mem_flatMap, List.mem_cons, List.not_mem_nil, or_false] at he
    rcases he with ⟨q, hq, rfl | rfl⟩ | he
    · exact (h.1.2 q hq).1
    · exact (h.1.2 q hq).2
    · exact exprsL_kit body h.2 e he
  | .for_ it lb ub s body, h, e, he => by
    simp only [Verif.PClast.Kit.S, Bool.and_eq_true] at h
    simp only [exprs, List.mem_append] at he
    rcases he with (he | he) | he
    · exact kit_O h.1.1.1.2 e he
    · exact kit_O h.1.1.2 e he
    · exact exprsL_kit body h.2 e he
theorem exprsL_kit {K : Verif.PClast.Kit} {nm : Nat → String} :
    ∀ ss, K.Ss nm ss = true → ∀ e ∈ exprsL ss, K.E e = true
  | [], _, e, he => by simp [exprsL] at he
  | s :: ss, h, e, he => by
    simp only [Verif.PClast.Kit.Ss, Bool.and_eq_true] at h
    simp only [exprsL, List.mem_append] at he
    rcases he with he | he
    · exact exprs_kit s h.1 e he
    · exact exprsL_kit ss h.2 e he
end

open Verif.PClast Verif.PStmt in
/-- All expressions of all generated programs: printed for Fortran and read as Fortran they have their value,
and no other, as long as the operands of the divisions that are done in reals are at most `2 ^ p`.  Names are
identifiers, strides are positive, definitions of existentials have a numerator and a positive denominator. -/
theorem C75_program_partial {nm : Nat → String} (hnm : ∀ k, name (nm k) = true) {cx : Ctx}
    (hc : CtxPrintK fKit cx) {icmp : Int → Int → Int} {loops : List Loop} (hl : loopsOKK fKit loops = true)
    {ss : List Stmt} (h : clastCreate cx icmp loops = some ss) (e : Expr) (he : e ∈ exprsL ss)
    {p : Nat} {rnd : ℚ → ℚ} (hr : Nearest p rnd) (env : String → Int) (hs : Small p (fun s => env (fold s)) e)
    (v : Int) : Means rnd env (exprC .fortran e) v ↔ v = e.eval (fun s => env (fold s)) := by
  have hk : fKit.Ss nm ss = true := insertLoops_ok hnm hc loops 0 [] (fun _ => none) (fun _ => rfl) hl h
  have := exprsL_kit ss hk e he
  simp only [fKit, Bool.and_eq_true, decide_eq_true_eq] at this
  exact C75_expression_partial e this.2 this.1 hr env hs v

/-- Beyond `2 ^ p` the value is wrong: with single precision reals (`p = 24`), whatever is done with ties,
`FLOOR(REAL(N)/REAL(2))` for `N = 67108863` is 33554432, not 33554431. -/
theorem C75_rounded {rnd : ℚ → ℚ} (hr : Nearest 24 rnd) (env : String → Int) (hN : env "n" = 67108863) :
    Means rnd env (exprC .fortran (.bin .fdiv (.name "N") 2)) 33554432 ∧
    (Expr.bin .fdiv (.name "N") 2).eval (fun s => env (fold s)) = 33554431 := by
  have hf : fold "N" = "n" := by decide +kernel
  refine ⟨⟨[.id "FLOOR", .lpar, .id "REAL", .lpar, .id "N", .rpar, .slash, .id "REAL", .lpar, .num 2, .rpar, .rpar],
    .call "FLOOR" [.bin .div (.call "REAL" [.var "N"]) (.call "REAL" [.num 2])], by decide +kernel, ?_, ?_⟩, ?_⟩
  · obtain ⟨_, t, h2, h3⟩ := quot_parse "FLOOR" (by decide +kernel) 2
      (Good.exp (k := 0) (Good.var (s := "N") (by decide +kernel) (fun _ _ => True)) (by omega))
    have h4 : IsExp (tokens (quotP "FLOOR" [.tok (.id "N")] 2))
        (.call "FLOOR" [.bin .div (.call "REAL" [.var "N"]) (.call "REAL" [.num 2])]) := by
      apply IsProd.exp
      apply IsPrim.prod
      exact IsExp.call1 "FLOOR" (((IsPrim.var "N").prod.exp.call1 "REAL").prod.div
        ((IsPrim.num 2).prod.exp.call1 "REAL")).exp
    have := h4.whole (rest := []) (Or.inl rfl)
    rwa [List.append_nil] at this
  · have h := floor_wrong (p := 24) (by omega) hr
    have h2 : rnd ((2 : ℤ) : ℚ) ≠ 0 := by
      rw [hr.exact (float_int (by norm_num))]
      norm_num
    norm_num at h h2
    simp only [value, values, hf, hN, callVal, binVal, Option.bind_some, Option.map_some, if_true]
    norm_num [h2]
    simp [callVal, h]
  · show floord (env (fold "N")) 2 = _
    rw [hf, hN]
    decide

/-! ### Example -/

/-- `MIN(FLOOR(REAL(-2*i+M-3)/REAL(4)),-(i+1)/2,MOD(j, 3))` -/
def exF : Expr := .red .min [.bin .fdiv (.red .sum [.term (-2) (.name "i"), .term 1 (.name "M"), .cst (-3)]) 4,
  .bin .div (.term (-1) (.red .sum [.name "i", .cst 1])) 2, .bin .mod (.name "j") 3]

theorem exF_text : exprC .fortran exF = "MIN(FLOOR(REAL(-2*i+M-3)/REAL(4)),-(i+1)/2,MOD(j, 3))".toList := by
  decide +kernel

example {rnd : ℚ → ℚ} (hr : Nearest 24 rnd) (v : Int) :
    Means rnd (fun _ => 5) "MIN(FLOOR(REAL(-2*i+M-3)/REAL(4)),-(i+1)/2,MOD(j, 3))".toList v ↔ v = -3 := by
  rw [← exF_text]
  have h := C75_expression_partial exF (by decide +kernel) (by decide +kernel) hr (fun _ => 5)
    (by simp [exF, Small, Smalls, Expr.eval, evalList, RedType.eval]) v
  rw [h]
  have : exF.eval (fun _ => 5) = -3 := by decide +kernel
  rw [this]

open Verif.PClast Verif.Props.PPrint Verif.Props.ClastExec in
/-- The context of C25's and C35's example. -/
theorem exC_fortran : CtxPrintK fKit exC := ⟨exN_print, fun l => List.Perm.refl l, fun l => List.Perm.refl l,
  fun d e hden h => by
    have hf : exC.floorAff d = Verif.Props.Guards.plainFloor d := rfl
    rw [hf] at h
    unfold Verif.Props.Guards.plainFloor at h
    dsimp only at h
    split at h
    · cases h
    · rename_i hn
      simp only [Option.some.injEq] at h
      subst h
      simp only [someD, Bool.or_eq_true, Bool.and_eq_true, List.any_map]
      refine ⟨Or.inl ?_, by simpa [fKit] using hden⟩
      rw [List.any_eq_true]
      simp only [List.all_eq_true, beq_iff_eq, not_forall] at hn
      obtain ⟨c, hc, hz⟩ := hn
      exact ⟨c, hc, by simpa using hz⟩⟩

open Verif.PClast Verif.Props.PPrint Verif.Props.ClastExec in
-- The tree of C25's example: the bound `N`, the condition `i <= FLOOR(REAL(N-1)/REAL(2))`, the argument `i+1`.
example {ss : List Stmt} (h : clastCreate exC gmpCmp exTree = some ss) {rnd : ℚ → ℚ} (hr : Nearest 24 rnd)
    (env : String → Int) (hN : env "n" = 8) (v : Int) :
    Means rnd env "FLOOR(REAL(N-1)/REAL(2))".toList v ↔ v = 3 := by
  have hs : clastCreate exC gmpCmp exTree = some [.for_ "i" (some (.red .max [.cst 0]))
    (some (.red .min [.red .sum [.term 1 (.name "N")]])) 1
    [.guard [⟨.term 1 (.name "i"),
        .red .min [.bin .fdiv (.red .sum [.term 1 (.name "N"), .cst (-1)]) 2], -1⟩]
      [.user 7 [.term 1 (.name "i"), .red .sum [.term 1 (.name "i"), .cst 1]]]]] := rfl
  rw [hs] at h
  cases h
  have hf : fold "N" = "n" := by decide +kernel
  have := C75_program_partial exStmt_ok exC_fortran (by decide) hs
    (.red .min [.bin .fdiv (.red .sum [.term 1 (.name "N"), .cst (-1)]) 2]) (by simp [exprsL, exprs]) hr env
    (by simp [Small, Smalls, Expr.eval, evalList, RedType.eval, hf, hN]) v
  have ht : exprC .fortran (.red .min [.bin .fdiv (.red .sum [.term 1 (.name "N"), .cst (-1)]) 2]) =
      "FLOOR(REAL(N-1)/REAL(2))".toList := by decide +kernel
  rw [ht] at this
  rw [this]
  simp [Expr.eval, evalList, RedType.eval, hf, hN, BinType.eval, floord]

end Verif.Props.Fortran
