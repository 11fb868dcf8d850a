import Verif.Model.ClastSem

/-!
# Basic facts about the execution of generated programs
-/

namespace Verif.ClastGen

open Verif.IntOps Verif.Clast Verif.Bound

theorem exec_nil {env env' : Env} {tr : List Event} :
    Exec [] env tr env' ↔ tr = [] ∧ env' = env := by
  constructor
  · intro h; cases h; exact ⟨rfl, rfl⟩
  · rintro ⟨rfl, rfl⟩; exact .nil _

theorem exec_append : ∀ (a b : List Stmt) (env env' : Env) (tr : List Event),
    Exec (a ++ b) env tr env' ↔
      ∃ t1 e1 t2, Exec a env t1 e1 ∧ Exec b e1 t2 env' ∧ tr = t1 ++ t2
  | [], b, env, env', tr => by
    simp only [List.nil_append]
    constructor
    · intro h; exact ⟨[], env, tr, .nil _, h, rfl⟩
    · rintro ⟨t1, e1, t2, h1, h2, rfl⟩
      cases h1; simpa using h2
  | s :: a, b, env, env', tr => by
    have ih := exec_append a b
    simp only [List.cons_append]
    constructor
    · intro h
      cases h with
      | ass h =>
        obtain ⟨t1, e1, t2, h1, h2, rfl⟩ := (ih _ _ _).mp h
        exact ⟨t1, e1, t2, .ass h1, h2, rfl⟩
      | user h =>
        obtain ⟨t1, e1, t2, h1, h2, rfl⟩ := (ih _ _ _).mp h
        exact ⟨_, e1, t2, .user h1, h2, rfl⟩
      | block hb h =>
        obtain ⟨t1, e1, t2, h1, h2, rfl⟩ := (ih _ _ _).mp h
        exact ⟨_, e1, t2, .block hb h1, h2, by simp⟩
      | guardT hq hb h =>
        obtain ⟨t1, e1, t2, h1, h2, rfl⟩ := (ih _ _ _).mp h
        exact ⟨_, e1, t2, .guardT hq hb h1, h2, by simp⟩
      | guardF hq h =>
        obtain ⟨t1, e1, t2, h1, h2, rfl⟩ := (ih _ _ _).mp h
        exact ⟨_, e1, t2, .guardF hq h1, h2, rfl⟩
      | for_ hb h =>
        obtain ⟨t1, e1, t2, h1, h2, rfl⟩ := (ih _ _ _).mp h
        exact ⟨_, e1, t2, .for_ hb h1, h2, by simp⟩
    · rintro ⟨t1, e1, t2, h1, h2, rfl⟩
      cases h1 with
      | ass h => exact .ass ((ih _ _ _).mpr ⟨_, _, _, h, h2, rfl⟩)
      | user h => exact .user ((ih _ _ _).mpr ⟨_, _, _, h, h2, rfl⟩)
      | block hb h =>
        rw [List.append_assoc]; exact .block hb ((ih _ _ _).mpr ⟨_, _, _, h, h2, rfl⟩)
      | guardT hq hb h =>
        rw [List.append_assoc]; exact .guardT hq hb ((ih _ _ _).mpr ⟨_, _, _, h, h2, rfl⟩)
      | guardF hq h => exact .guardF hq ((ih _ _ _).mpr ⟨_, _, _, h, h2, rfl⟩)
      | for_ hb h =>
        rw [List.append_assoc]; exact .for_ hb ((ih _ _ _).mpr ⟨_, _, _, h, h2, rfl⟩)

theorem exec_guard {qs : List Eqn} {body : List Stmt} {env env' : Env} {tr : List Event} :
    Exec [.guard qs body] env tr env' ↔
      ((∀ q ∈ qs, q.holds env) ∧ Exec body env tr env') ∨
      (¬ (∀ q ∈ qs, q.holds env) ∧ tr = [] ∧ env' = env) := by
  constructor
  · intro h
    cases h with
    | guardT hq hb h => cases h; left; exact ⟨hq, by simpa using hb⟩
    | guardF hq h => cases h; right; exact ⟨hq, rfl, rfl⟩
  · rintro (⟨hq, hb⟩ | ⟨hq, rfl, rfl⟩)
    · have := Exec.guardT hq hb (.nil env'); simpa using this
    · exact .guardF hq (.nil _)

theorem exec_block {body : List Stmt} {env env' : Env} {tr : List Event} :
    Exec [.block body] env tr env' ↔ Exec body env tr env' := by
  constructor
  · intro h
    cases h with
    | block hb h => cases h; simpa using hb
  · intro h; have := Exec.block h (.nil env'); simpa using this

theorem exec_ass {x : String} {e : Expr} {rest : List Stmt} {env env' : Env} {tr : List Event} :
    Exec (.ass x e :: rest) env tr env' ↔
      Exec rest (Function.update env x (e.eval env)) tr env' :=
  ⟨fun h => by cases h; assumption, .ass⟩

/-- Execution is deterministic. -/
theorem exec_det {b : List Stmt} {env : Env} {t : List Event} {e : Env}
    (h : Exec b env t e) : ∀ {t' : List Event} {e' : Env}, Exec b env t' e' → t' = t ∧ e' = e := by
  refine Exec.rec (motive_1 := fun b env t e _ => ∀ {t' : List Event} {e' : Env},
      Exec b env t' e' → t' = t ∧ e' = e)
    (motive_2 := fun it ub s b env t e _ => ∀ {t' : List Event} {e' : Env},
      ForExec it ub s b env t' e' → t' = t ∧ e' = e) ?_ ?_ ?_ ?_ ?_ ?_ ?_ ?_ ?_ h
  · intro _ _ _ h; cases h; exact ⟨rfl, rfl⟩
  · intro _ _ _ _ _ _ _ ih _ _ h; cases h with | ass h => exact ih h
  · intro _ _ _ _ _ _ _ ih _ _ h
    cases h with
    | user h => obtain ⟨rfl, rfl⟩ := ih h; exact ⟨rfl, rfl⟩
  · intro _ _ _ _ _ _ _ _ _ ih1 ih2 _ _ h
    cases h with
    | block g1 g2 =>
      obtain ⟨rfl, rfl⟩ := ih1 g1
      obtain ⟨rfl, rfl⟩ := ih2 g2
      exact ⟨rfl, rfl⟩
  · intro _ _ _ _ _ _ _ _ hq _ _ ih1 ih2 _ _ h
    cases h with
    | guardT _ g1 g2 =>
      obtain ⟨rfl, rfl⟩ := ih1 g1
      obtain ⟨rfl, rfl⟩ := ih2 g2
      exact ⟨rfl, rfl⟩
    | guardF hn _ => exact absurd hq hn
  · intro _ _ _ _ _ _ hq _ ih _ _ h
    cases h with
    | guardT hn _ _ => exact absurd hn hq
    | guardF _ g => exact ih g
  · intro _ _ _ _ _ _ _ _ _ _ _ _ _ ih1 ih2 _ _ h
    cases h with
    | for_ g1 g2 =>
      obtain ⟨rfl, rfl⟩ := ih1 g1
      obtain ⟨rfl, rfl⟩ := ih2 g2
      exact ⟨rfl, rfl⟩
  · intro _ _ _ _ _ hc _ _ h
    cases h with
    | done _ => exact ⟨rfl, rfl⟩
    | step hc' _ _ => exact absurd hc' hc
  · intro _ _ _ _ _ _ _ _ _ hc _ _ ih1 ih2 _ _ h
    cases h with
    | done hc' => exact absurd hc hc'
    | step _ g1 g2 =>
      obtain ⟨rfl, rfl⟩ := ih1 g1
      obtain ⟨rfl, rfl⟩ := ih2 g2
      exact ⟨rfl, rfl⟩

/-- The modulo guards around some code. -/
theorem exec_wraps (env env' : Env) (tr : List Event) (body : List Stmt) :
    ∀ outs : List ModOut, Exec (outs.foldr ModOut.wrap body) env tr env' ↔
      ((∀ q, .test q ∈ outs → q.holds env) ∧ Exec body env tr env') ∨
      (¬ (∀ q, .test q ∈ outs → q.holds env) ∧ tr = [] ∧ env' = env)
  | [] => by simp
  | o :: os => by
    have ih := exec_wraps env env' tr body os
    cases o with
    | ok => simpa [ModOut.wrap] using ih
    | unsat => simpa [ModOut.wrap] using ih
    | test q =>
      simp only [List.foldr_cons, ModOut.wrap]
      rw [exec_guard, ih]
      have hone : (∀ q' ∈ [q], q'.holds env) ↔ q.holds env := by simp
      rw [hone]
      simp only [List.mem_cons, ModOut.test.injEq]
      by_cases hq : q.holds env
      · have : (∀ q', q' = q ∨ .test q' ∈ os → q'.holds env) ↔
            (∀ q', .test q' ∈ os → q'.holds env) := by
          constructor
          · intro h q' hq'; exact h q' (Or.inr hq')
          · rintro h q' (rfl | h')
            · exact hq
            · exact h q' h'
        simp only [hq, true_and, not_true, false_and, or_false, this]
      · have : ¬ (∀ q', q' = q ∨ .test q' ∈ os → q'.holds env) := fun h => hq (h q (Or.inl rfl))
        simp only [hq, false_and, not_false_eq_true, true_and, false_or, this]

end Verif.ClastGen
