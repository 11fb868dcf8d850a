import Verif.Model.FProg
import Verif.Lemmas.FExpr

/-!
# Fortran programs are read and run in one way
-/

namespace Verif.FProgL
open Verif.CText Verif.FReal Verif.FText Verif.FExpr Verif.FProg

/-! ## Conditions -/

/-- What begins with a parenthesis and is an expression. -/
theorem exp_paren {ts : List Tok} {e : CExpr} {r : List Tok} (h : Exp (.lpar :: ts) e r) :
    ∃ e' r', Exp ts e' (.rpar :: r') := by
  cases h with
  | pos h1 h2 =>
    cases h1 with
    | mk h3 h4 =>
      cases h3 with
      | paren h5 => exact ⟨_, _, h5⟩

mutual
/-- Where a condition begins, an expression ends before a comparison. -/
theorem log_exp : ∀ {ts c r e r'}, Log ts c r → Exp ts e r' → ∃ t q o, r' = t :: q ∧ relOf t = some o
  | _, _, _, _, _, .mk h _, he => logPrim_exp h he
theorem logPrim_exp : ∀ {ts c r e r'}, LogPrim ts c r → Exp ts e r' → ∃ t q o, r' = t :: q ∧ relOf t = some o
  | _, _, _, _, _, .rel h1 h2 _, he => by
    obtain ⟨-, h⟩ := exp_det h1 he
    exact ⟨_, _, _, h.symm, h2⟩
  | _, _, _, _, _, .paren h, he => by
    obtain ⟨e', r', h'⟩ := exp_paren he
    obtain ⟨t, q, o, hq, ho⟩ := log_exp h h'
    cases hq
    cases ho
end

mutual
theorem log_det : ∀ {ts c r c' r'}, Log ts c r → Log ts c' r' → c = c' ∧ r = r'
  | _, _, _, _, _, .mk h1 h2, .mk g1 g2 => by
    obtain ⟨rfl, rfl⟩ := logPrim_det h1 g1
    exact logRest_det h2 g2
theorem logRest_det : ∀ {a ts c r c' r'}, LogRest a ts c r → LogRest a ts c' r' → c = c' ∧ r = r'
  | _, _, _, _, _, _, .stop _, .stop _ => ⟨rfl, rfl⟩
  | _, _, _, _, _, _, .stop h, .and _ _ => absurd rfl h
  | _, _, _, _, _, _, .and _ _, .stop h => absurd rfl h
  | _, _, _, _, _, _, .and h1 h2, .and g1 g2 => by
    obtain ⟨rfl, rfl⟩ := logPrim_det h1 g1
    exact logRest_det h2 g2
theorem logPrim_det : ∀ {ts c r c' r'}, LogPrim ts c r → LogPrim ts c' r' → c = c' ∧ r = r'
  | _, _, _, _, _, .rel h1 h2 h3, .rel g1 g2 g3 => by
    obtain ⟨rfl, h⟩ := exp_det h1 g1
    cases h
    rw [h2] at g2
    cases g2
    obtain ⟨rfl, rfl⟩ := exp_det h3 g3
    exact ⟨rfl, rfl⟩
  | _, _, _, _, _, .rel h1 h2 h3, .paren g => by
    obtain ⟨e', r', h'⟩ := exp_paren h1
    obtain ⟨t, q, o, hq, ho⟩ := log_exp g h'
    cases hq
    cases ho
  | _, _, _, _, _, .paren h, .rel g1 _ _ => by
    obtain ⟨e', r', h'⟩ := exp_paren g1
    obtain ⟨t, q, o, hq, ho⟩ := log_exp h h'
    cases hq
    cases ho
  | _, _, _, _, _, .paren h, .paren g => by
    obtain ⟨rfl, h'⟩ := log_det h g
    cases h'
    exact ⟨rfl, rfl⟩
end

/-! ## Lines -/

theorem exp_rpar {ts : List Tok} {e : CExpr} {r : List Tok} (h : Exp (.rpar :: ts) e r) : False := by
  cases h with
  | pos h1 h2 =>
    cases h1 with
    | mk h3 h4 => cases h3

theorem args_rpar {ts : List Tok} {es : List CExpr} {r : List Tok} (h : Args (.rpar :: ts) es r) : False := by
  cases h with
  | one h _ => exact exp_rpar h
  | cons h _ => exact exp_rpar h

theorem doLine_det {l x lb ub st x' lb' ub' st'} (h : DoLine l x lb ub st) (g : DoLine l x' lb' ub' st') :
    x = x' ∧ lb = lb' ∧ ub = ub' ∧ st = st' := by
  cases h with
  | unit _ h1 h2 =>
    cases g with
    | unit _ g1 g2 =>
      obtain ⟨rfl, h⟩ := exp_det h1 g1
      cases h
      obtain ⟨rfl, -⟩ := exp_det h2 g2
      exact ⟨rfl, rfl, rfl, rfl⟩
    | step _ g1 g2 _ =>
      obtain ⟨rfl, h⟩ := exp_det h1 g1
      cases h
      obtain ⟨-, h⟩ := exp_det h2 g2
      cases h
  | step _ h1 h2 h3 =>
    cases g with
    | unit _ g1 g2 =>
      obtain ⟨rfl, h⟩ := exp_det h1 g1
      cases h
      obtain ⟨-, h⟩ := exp_det h2 g2
      cases h
    | step _ g1 g2 g3 =>
      obtain ⟨rfl, h⟩ := exp_det h1 g1
      cases h
      obtain ⟨rfl, h⟩ := exp_det h2 g2
      cases h
      obtain ⟨rfl, -⟩ := exp_det h3 g3
      exact ⟨rfl, rfl, rfl, rfl⟩

theorem ifLine_det {l c c'} (h : IfLine l c) (g : IfLine l c') : c = c' := by
  cases h with
  | mk _ _ h =>
    cases g with
    | mk _ _ g => exact (log_det h g).1

theorem callLine_det {l f es f' es'} (h : CallLine l f es) (g : CallLine l f' es') : f = f' ∧ es = es' := by
  cases h with
  | none _ =>
    cases g with
    | none _ => exact ⟨rfl, rfl⟩
    | args _ g => exact (args_rpar g).elim
  | args _ h =>
    cases g with
    | none _ => exact (args_rpar h).elim
    | args _ g => exact ⟨rfl, (args_det h g).1⟩

theorem two_words {a b : String} {l : List Tok} (h : twoWords a b l = true) : ∃ x y, l = [.id x, .id y] := by
  match l, h with
  | [.id x, .id y], _ => exact ⟨x, y, rfl⟩

theorem closing_words {l : List Tok} (h : closing l = true) : ∃ x y, l = [.id x, .id y] := by
  simp only [closing, Bool.or_eq_true] at h
  rcases h with h | h <;> exact two_words h

theorem not_closing_do {l x lb ub st} (h : DoLine l x lb ub st) : closing l = false := by
  cases hc : closing l with
  | false => rfl
  | true =>
    obtain ⟨a, b, e⟩ := closing_words hc
    cases h <;> simp at e

theorem not_closing_if {l c} (h : IfLine l c) : closing l = false := by
  cases hc : closing l with
  | false => rfl
  | true =>
    obtain ⟨a, b, e⟩ := closing_words hc
    cases h
    simp at e

theorem not_closing_call {l f es} (h : CallLine l f es) : closing l = false := by
  cases hc : closing l with
  | false => rfl
  | true =>
    obtain ⟨a, b, e⟩ := closing_words hc
    cases h <;> simp at e

theorem do_not_if {l x lb ub st c} (h : DoLine l x lb ub st) (g : IfLine l c) : False := by
  cases h <;> cases g
theorem do_not_call {l x lb ub st f es} (h : DoLine l x lb ub st) (g : CallLine l f es) : False := by
  cases h <;> cases g
theorem if_not_call {l c f es} (h : IfLine l c) (g : CallLine l f es) : False := by
  cases h with
  | mk h1 _ _ => cases g with
    | none g => exact g h1
    | args g _ => exact g h1

theorem parse_det {ls p r p' r'} (h : FProg.Parse ls p r) (g : FProg.Parse ls p' r') : p = p' ∧ r = r' := by
  induction h generalizing p' r' with
  | stop h0 =>
    cases g with
    | stop _ => exact ⟨rfl, rfl⟩
    | blank _ => exact absurd (h0 _ rfl) (by decide)
    | asg _ _ => exact absurd (h0 _ rfl) (by simp [closing, twoWords])
    | call g _ => exact absurd (h0 _ rfl) (by simp [not_closing_call g])
    | ite g _ _ _ => exact absurd (h0 _ rfl) (by simp [not_closing_if g])
    | loop g _ _ _ => exact absurd (h0 _ rfl) (by simp [not_closing_do g])
  | blank h ih =>
    cases g with
    | stop g0 => exact absurd (g0 _ rfl) (by decide)
    | blank g => exact ih g
    | call g _ => cases g
    | ite g _ _ _ => cases g
    | loop g _ _ _ => cases g
  | asg h1 h2 ih =>
    cases g with
    | stop g0 => exact absurd (g0 _ rfl) (by simp [closing, twoWords])
    | asg g1 g2 =>
      obtain ⟨rfl, -⟩ := exp_det h1 g1
      obtain ⟨rfl, rfl⟩ := ih g2
      exact ⟨rfl, rfl⟩
    | call g _ => cases g
    | ite g _ _ _ => cases g
    | loop g _ _ _ => cases g
  | call h1 h2 ih =>
    cases g with
    | stop g0 => exact absurd (g0 _ rfl) (by simp [not_closing_call h1])
    | blank _ => cases h1
    | asg _ _ => cases h1
    | call g1 g2 =>
      obtain ⟨rfl, rfl⟩ := callLine_det h1 g1
      obtain ⟨rfl, rfl⟩ := ih g2
      exact ⟨rfl, rfl⟩
    | ite g1 _ _ _ => exact (if_not_call g1 h1).elim
    | loop g1 _ _ _ => exact (do_not_call g1 h1).elim
  | ite h1 h2 h3 h4 ih2 ih4 =>
    cases g with
    | stop g0 => exact absurd (g0 _ rfl) (by simp [not_closing_if h1])
    | blank _ => cases h1
    | asg _ _ => cases h1
    | call g1 g2 => exact (if_not_call h1 g1).elim
    | ite g1 g2 g3 g4 =>
      obtain rfl := ifLine_det h1 g1
      obtain ⟨rfl, e⟩ := ih2 g2
      cases e
      obtain ⟨rfl, rfl⟩ := ih4 g4
      exact ⟨rfl, rfl⟩
    | loop g1 _ _ _ => exact (do_not_if g1 h1).elim
  | loop h1 h2 h3 h4 ih2 ih4 =>
    cases g with
    | stop g0 => exact absurd (g0 _ rfl) (by simp [not_closing_do h1])
    | blank _ => cases h1
    | asg _ _ => cases h1
    | call g1 g2 => exact (do_not_call h1 g1).elim
    | ite g1 g2 g3 g4 => exact (do_not_if h1 g1).elim
    | loop g1 g2 g3 g4 =>
      obtain ⟨rfl, rfl, rfl, rfl⟩ := doLine_det h1 g1
      obtain ⟨rfl, e⟩ := ih2 g2
      cases e
      obtain ⟨rfl, rfl⟩ := ih4 g4
      exact ⟨rfl, rfl⟩

/-- A text is at most one program. -/
theorem program_det {cs : List Char} {p p' : List FStmt} (h : Program cs p) (g : Program cs p') : p = p' := by
  obtain ⟨ls, h1, h2⟩ := h
  obtain ⟨ls', g1, g2⟩ := g
  rw [h1] at g1
  cases g1
  exact (parse_det h2 g2).1

/-! ## Execution -/

mutual
theorem run_det {rnd : ℚ → ℚ} : ∀ {ss env t e t' e'}, Run rnd ss env t e → Run rnd ss env t' e' → t = t' ∧ e = e'
  | _, _, _, _, _, _, .nil _, h => by cases h; exact ⟨rfl, rfl⟩
  | _, _, _, _, _, _, .asg h1 h2, h => by
    cases h with
    | asg g1 g2 =>
      rw [h1] at g1
      cases g1
      exact run_det h2 g2
  | _, _, _, _, _, _, .call h1 h2, h => by
    cases h with
    | call g1 g2 =>
      rw [h1] at g1
      cases g1
      obtain ⟨a, b⟩ := run_det h2 g2
      exact ⟨by rw [a], b⟩
  | _, _, _, _, _, _, .iteT h0 h1 h2, h => by
    cases h with
    | iteT _ g1 g2 =>
      obtain ⟨a, b⟩ := run_det h1 g1
      subst a b
      obtain ⟨a, b⟩ := run_det h2 g2
      exact ⟨by rw [a], b⟩
    | iteF g0 => rw [h0] at g0; cases g0
  | _, _, _, _, _, _, .iteF h0 h1, h => by
    cases h with
    | iteT g0 => rw [h0] at g0; cases g0
    | iteF _ g1 => exact run_det h1 g1
  | _, _, _, _, _, _, .loop h1 h2 h3 _ h4 h5, h => by
    cases h with
    | loop g1 g2 g3 _ g4 g5 =>
      rw [h1] at g1
      cases g1
      rw [h2] at g2
      cases g2
      rw [h3] at g3
      cases g3
      obtain ⟨a, b⟩ := runDo_det h4 g4
      subst a b
      obtain ⟨a, b⟩ := run_det h5 g5
      exact ⟨by rw [a], b⟩
theorem runDo_det {rnd : ℚ → ℚ} : ∀ {x s body n env t e t' e'}, RunDo rnd x s body n env t e →
    RunDo rnd x s body n env t' e' → t = t' ∧ e = e'
  | _, _, _, _, _, _, _, _, _, .done, h => by cases h; exact ⟨rfl, rfl⟩
  | _, _, _, _, _, _, _, _, _, .iter h1 _ h2, h => by
    cases h with
    | iter g1 _ g2 =>
      obtain ⟨a, b⟩ := run_det h1 g1
      subst a b
      obtain ⟨a, b⟩ := runDo_det h2 g2
      exact ⟨by rw [a], b⟩
end

end Verif.FProgL
