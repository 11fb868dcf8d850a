import Verif.Lemmas.FLines
import Verif.Props.Parallel
import Verif.Props.ClastExec
import Verif.Lemmas.Steady

/-!
# C78: programs printed for Fortran
-/

namespace Verif.Props.FProg
open Verif.CText Verif.Clast Verif.ClastGen Verif.PPrint Verif.PText Verif.PGlue Verif.FText Verif.FReal Verif.FExpr
open Verif.PStmt Verif.PClast Verif.FProg Verif.FProgL Verif.FLines Verif.ClastNames Verif.IntOps
open Verif.Props.PText Verif.Props.Fortran Verif.Props.Parallel Verif.Steady

/-! ## Executions with a condition on the values -/

mutual
/-- As `Exec`, with a condition on every expression that is evaluated. -/
inductive ExecP (ok : Env → Expr → Prop) : List Stmt → Env → List Event → Env → Prop
  | nil (env) : ExecP ok [] env [] env
  | ass {x e rest env tr env'} : ok env e → ExecP ok rest (Function.update env x (e.eval env)) tr env' →
      ExecP ok (.ass x e :: rest) env tr env'
  | user {s args rest env tr env'} : (∀ e ∈ args, ok env e) → ExecP ok rest env tr env' →
      ExecP ok (.user s args :: rest) env (⟨s, args.map (Expr.eval env)⟩ :: tr) env'
  | block {body rest env t1 env1 t2 env2} : ExecP ok body env t1 env1 → ExecP ok rest env1 t2 env2 →
      ExecP ok (.block body :: rest) env (t1 ++ t2) env2
  | guardT {qs body rest env t1 env1 t2 env2} : (∀ q ∈ qs, ok env q.lhs ∧ ok env q.rhs) → (∀ q ∈ qs, q.holds env) →
      ExecP ok body env t1 env1 → ExecP ok rest env1 t2 env2 → ExecP ok (.guard qs body :: rest) env (t1 ++ t2) env2
  | guardF {qs body rest env tr env'} : (∀ q ∈ qs, ok env q.lhs ∧ ok env q.rhs) → ¬ (∀ q ∈ qs, q.holds env) →
      ExecP ok rest env tr env' → ExecP ok (.guard qs body :: rest) env tr env'
  | for_ {it lb ub s body rest env t1 env1 t2 env2} : ok env lb → ok env ub →
      ForExecP ok it ub s body (Function.update env it (lb.eval env)) t1 env1 →
      ExecP ok rest env1 t2 env2 →
      ExecP ok (.for_ it (some lb) (some ub) s body :: rest) env (t1 ++ t2) env2
/-- As `ForExec`. -/
inductive ForExecP (ok : Env → Expr → Prop) : String → Expr → Int → List Stmt → Env → List Event → Env → Prop
  | done {it ub s body env} : ¬ env it ≤ ub.eval env → ForExecP ok it ub s body env [] env
  | step {it ub s body env t1 env1 t2 env2} : env it ≤ ub.eval env → ExecP ok body env t1 env1 →
      ForExecP ok it ub s body (Function.update env1 it (env1 it + s)) t2 env2 →
      ForExecP ok it ub s body env (t1 ++ t2) env2
end

mutual
theorem exec_of {ok : Env → Expr → Prop} : ∀ {ss env t env'}, ExecP ok ss env t env' → Exec ss env t env'
  | _, _, _, _, .nil env => .nil env
  | _, _, _, _, .ass _ h => .ass (exec_of h)
  | _, _, _, _, .user _ h => .user (exec_of h)
  | _, _, _, _, .block h1 h2 => .block (exec_of h1) (exec_of h2)
  | _, _, _, _, .guardT _ h h1 h2 => .guardT h (exec_of h1) (exec_of h2)
  | _, _, _, _, .guardF _ h h1 => .guardF h (exec_of h1)
  | _, _, _, _, .for_ _ _ h1 h2 => .for_ (for_of h1) (exec_of h2)
theorem for_of {ok : Env → Expr → Prop} : ∀ {it ub s body env t env'}, ForExecP ok it ub s body env t env' →
    ForExec it ub s body env t env'
  | _, _, _, _, _, _, _, .done h => .done h
  | _, _, _, _, _, _, _, .step h h1 h2 => .step h (exec_of h1) (for_of h2)
end

section
variable {ok : Env → Expr → Prop} {W : List String} {env0 : Env}

/-- The variables outside of `W` have their first values. -/
def Kept (W : List String) (env0 env : Env) : Prop := ∀ x, x ∉ W → env x = env0 x

theorem Kept.update {env : Env} (h : Kept W env0 env) {x : String} (hx : x ∈ W) (v : Int) :
    Kept W env0 (Function.update env x v) := by
  intro y hy
  have hne : y ≠ x := fun e => hy (by rw [e]; exact hx)
  rw [Function.update_of_ne hne]
  exact h y hy

theorem Kept.exec {env env' : Env} (h : Kept W env0 env) {ss : List Stmt} {t : List Event} (hx : Exec ss env t env')
    (hw : ∀ x ∈ setsS ss, x ∈ W) : Kept W env0 env' := by
  intro y hy
  rw [exec_keeps hx y (fun hm => hy (hw y hm))]
  exact h y hy

theorem Kept.for_ {env env' : Env} (h : Kept W env0 env) {it : String} {ub : Expr} {s : Int} {ss : List Stmt}
    {t : List Event} (hx : ForExec it ub s ss env t env') (hi : it ∈ W) (hw : ∀ x ∈ setsS ss, x ∈ W) :
    Kept W env0 env' := by
  intro y hy
  rw [for_keeps hx y (fun e => hy (e ▸ hi)) (fun hm => hy (hw y hm))]
  exact h y hy

mutual
/-- The condition holds in an execution if it holds whenever the variables that are not set have their first
    values. -/
theorem execP_of : ∀ {ss env t env'}, Exec ss env t env' → (∀ x ∈ setsS ss, x ∈ W) → Kept W env0 env →
    (∀ e ∈ exprsL ss, ∀ env, Kept W env0 env → ok env e) → ExecP ok ss env t env'
  | _, _, _, _, .nil env, _, _, _ => .nil env
  | _, _, _, _, .ass h, hw, hk, ho => by
    simp only [exprsL, exprs, List.cons_append, List.nil_append, List.mem_cons] at ho
    simp only [setsS, sets, List.cons_append, List.nil_append, List.mem_cons] at hw
    exact .ass (ho _ (Or.inl rfl) _ hk) (execP_of h (fun x hx => hw x (Or.inr hx)) (hk.update (hw _ (Or.inl rfl)) _)
      (fun e he => ho e (Or.inr he)))
  | _, _, _, _, .user h, hw, hk, ho => by
    simp only [exprsL, exprs, List.mem_append] at ho
    simp only [setsS, sets, List.nil_append] at hw
    exact .user (fun e he => ho e (Or.inl he) _ hk) (execP_of h hw hk (fun e he => ho e (Or.inr he)))
  | _, _, _, _, .block h1 h2, hw, hk, ho => by
    simp only [exprsL, exprs, List.mem_append] at ho
    simp only [setsS, sets, List.mem_append] at hw
    have hw1 := fun x hx => hw x (Or.inl hx)
    exact .block (execP_of h1 hw1 hk (fun e he => ho e (Or.inl he)))
      (execP_of h2 (fun x hx => hw x (Or.inr hx)) (hk.exec h1 hw1) (fun e he => ho e (Or.inr he)))
  | _, _, _, _, .guardT h h1 h2, hw, hk, ho => by
    simp only [exprsL, exprs, List.mem_append, List.mem_flatMap, List.mem_cons, List.not_mem_nil, or_false] at ho
    simp only [setsS, sets, List.mem_append] at hw
    have hw1 := fun x hx => hw x (Or.inl hx)
    exact .guardT (fun q hq => ⟨ho _ (Or.inl (Or.inl ⟨q, hq, Or.inl rfl⟩)) _ hk,
        ho _ (Or.inl (Or.inl ⟨q, hq, Or.inr rfl⟩)) _ hk⟩) h
      (execP_of h1 hw1 hk (fun e he => ho e (Or.inl (Or.inr he))))
      (execP_of h2 (fun x hx => hw x (Or.inr hx)) (hk.exec h1 hw1) (fun e he => ho e (Or.inr he)))
  | _, _, _, _, .guardF h h1, hw, hk, ho => by
    simp only [exprsL, exprs, List.mem_append, List.mem_flatMap, List.mem_cons, List.not_mem_nil, or_false] at ho
    simp only [setsS, sets, List.mem_append] at hw
    exact .guardF (fun q hq => ⟨ho _ (Or.inl (Or.inl ⟨q, hq, Or.inl rfl⟩)) _ hk,
        ho _ (Or.inl (Or.inl ⟨q, hq, Or.inr rfl⟩)) _ hk⟩) h
      (execP_of h1 (fun x hx => hw x (Or.inr hx)) hk (fun e he => ho e (Or.inr he)))
  | _, _, _, _, .for_ h1 h2, hw, hk, ho => by
    simp only [exprsL, exprs, List.mem_append, Option.toList_some, List.mem_singleton] at ho
    simp only [setsS, sets, List.cons_append, List.mem_cons, List.mem_append] at hw
    have hi := hw _ (Or.inl rfl)
    have hw1 := fun x hx => hw x (Or.inr (Or.inl hx))
    have hk1 := hk.update hi
    exact .for_ (ho _ (Or.inl (Or.inl (Or.inl rfl))) _ hk) (ho _ (Or.inl (Or.inl (Or.inr rfl))) _ hk)
      (forP_of h1 hi hw1 (hk1 _) (fun e he => ho e (Or.inl (Or.inr he))))
      (execP_of h2 (fun x hx => hw x (Or.inr (Or.inr hx))) ((hk1 _).for_ h1 hi hw1) (fun e he => ho e (Or.inr he)))
theorem forP_of : ∀ {it ub s body env t env'}, ForExec it ub s body env t env' → it ∈ W → (∀ x ∈ setsS body, x ∈ W) →
    Kept W env0 env → (∀ e ∈ exprsL body, ∀ env, Kept W env0 env → ok env e) → ForExecP ok it ub s body env t env'
  | _, _, _, _, _, _, _, .done h, _, _, _, _ => .done h
  | _, _, _, _, _, _, _, .step h h1 h2, hi, hw, hk, ho =>
    .step h (execP_of h1 hw hk ho) (forP_of h2 hi hw ((hk.exec h1 hw).update hi _) ho)
end

end

/-! ## Names -/

/-- The variables of a program. -/
def varsL (ss : List Stmt) : List String := readsS ss ++ setsS ss

/-- The names differ in more than the case of their letters. -/
def Apart (N : List String) : Prop := ∀ x ∈ N, ∀ y ∈ N, fold x = fold y → x = y

instance (N : List String) : Decidable (Apart N) := by unfold Apart; infer_instance

/-- The variables have the same values in both languages. -/
def Agree (N : List String) (env : Env) (fenv : String → Int) : Prop := ∀ x ∈ N, fenv (fold x) = env x

theorem Agree.update {N : List String} {env : Env} {fenv : String → Int} (hi : Apart N) (h : Agree N env fenv)
    {x : String} (hx : x ∈ N) (v : Int) : Agree N (Function.update env x v) (Function.update fenv (fold x) v) := by
  intro y hy
  by_cases e : y = x
  · subst e
    rw [Function.update_self, Function.update_self]
  · rw [Function.update_of_ne e, Function.update_of_ne (fun h' => e (hi y hy x hx h'))]
    exact h y hy

theorem Agree.cenv {N : List String} {env : Env} {fenv : String → Int} (h : Agree N env fenv) {l : List String}
    (hl : ∀ x ∈ l, x ∈ N) : ∀ x ∈ l, cenv fenv x = env x := fun x hx => h x (hl x hx)

mutual
theorem small_congr {p : Nat} {env env' : Env} : ∀ e : Expr, (∀ x ∈ readsE e, env' x = env x) → Small p env e →
    Small p env' e
  | .name _, _, _ => trivial
  | .cst _, _, _ => trivial
  | .term _ v, h, hs => small_congr v (by simpa [readsE] using h) hs
  | .bin _ l _, h, hs => by
    have h' : ∀ x ∈ readsE l, env' x = env x := by simpa [readsE] using h
    exact ⟨small_congr l h' hs.1, by rw [eval_congr l h']; exact hs.2⟩
  | .red _ es, h, hs => smalls_congr es (by simpa [readsE] using h) hs
theorem smalls_congr {p : Nat} {env env' : Env} : ∀ es : List Expr, (∀ x ∈ readsEs es, env' x = env x) →
    Smalls p env es → Smalls p env' es
  | [], _, _ => trivial
  | e :: es, h, hs => by
    simp only [readsEs, List.mem_append] at h
    exact ⟨small_congr e (fun x hx => h x (Or.inl hx)) hs.1, smalls_congr es (fun x hx => h x (Or.inr hx)) hs.2⟩
end

/-! ## The same execution -/

theorem tr_ass {nm : Nat → String} {x : String} {e : Expr} {ss : List Stmt} {p : List FStmt}
    (h : FLines.Tr nm (.ass x e :: ss) p) : ∃ t q, p = .asg x t :: q ∧
      Vl t (fun p env => Small p env e) (fun env => e.eval env) ∧ FLines.Tr nm ss q := by
  cases h with
  | cons h1 h2 => cases h1 with | ass h => exact ⟨_, _, rfl, h, h2⟩

theorem tr_user {nm : Nat → String} {k : Nat} {es : List Expr} {ss : List Stmt} {p : List FStmt}
    (h : FLines.Tr nm (.user k es :: ss) p) : ∃ ts q, p = .call (nm k) ts :: q ∧ ArgsVal es ts ∧ FLines.Tr nm ss q := by
  cases h with
  | cons h1 h2 => cases h1 with | user h => exact ⟨_, _, rfl, h, h2⟩

theorem tr_guard {nm : Nat → String} {qs : List Eqn} {b ss : List Stmt} {p : List FStmt}
    (h : FLines.Tr nm (.guard qs b :: ss) p) : ∃ c pb q, p = .ite c pb :: q ∧ CondVal qs c ∧ FLines.Tr nm b pb ∧
      FLines.Tr nm ss q := by
  cases h with
  | cons h1 h2 => cases h1 with | guard h hb => exact ⟨_, _, _, rfl, h, hb, h2⟩

theorem tr_for {nm : Nat → String} {it : String} {lb ub : Expr} {s : Int} {b ss : List Stmt} {p : List FStmt}
    (h : FLines.Tr nm (.for_ it (some lb) (some ub) s b :: ss) p) : ∃ t u pb q, p = .loop it t u none pb :: q ∧ s = 1 ∧
      Vl t (fun p env => Small p env lb) (fun env => lb.eval env) ∧
      Vl u (fun p env => Small p env ub) (fun env => ub.eval env) ∧ FLines.Tr nm b pb ∧ FLines.Tr nm ss q := by
  cases h with
  | cons h1 h2 => cases h1 with | for_ h h' hb => exact ⟨_, _, _, _, rfl, rfl, h, h', hb, h2⟩

section
variable {p : Nat} {rnd : ℚ → ℚ} (hr : Nearest p rnd) {nm : Nat → String} {N : List String} (hi : Apart N)
include hr

theorem int_val {e : Expr} {t : CExpr} (hv : Vl t (fun p env => Small p env e) (fun env => e.eval env)) {env : Env}
    {fenv : String → Int} (ha : Agree N env fenv) (hn : ∀ x ∈ readsE e, x ∈ N) (hs : Small p env e) :
    intVal rnd fenv t = some (e.eval env) := by
  have hc := ha.cenv hn
  rw [intVal, hv p rnd fenv hr (small_congr e hc hs)]
  exact congrArg some (eval_congr e hc)

theorem holds_congr {q : Eqn} {env env' : Env} (h : ∀ x ∈ readsE q.lhs ++ readsE q.rhs, env' x = env x) :
    q.holds env' ↔ q.holds env := by
  simp only [List.mem_append] at h
  unfold Eqn.holds
  rw [eval_congr q.lhs (fun x hx => h x (Or.inl hx)), eval_congr q.rhs (fun x hx => h x (Or.inr hx))]

theorem cond_val {qs : List Eqn} {c : FCond} (hv : CondVal qs c) {env : Env} {fenv : String → Int}
    (ha : Agree N env fenv) (hn : ∀ x ∈ readsQ qs, x ∈ N) (hs : ∀ q ∈ qs, Small p env q.lhs ∧ Small p env q.rhs) :
    truth rnd fenv c = some (decide (∀ q ∈ qs, q.holds env)) := by
  have hq : ∀ q ∈ qs, ∀ x ∈ readsE q.lhs ++ readsE q.rhs, cenv fenv x = env x := fun q hq =>
    ha.cenv fun x hx => hn x (by rw [readsQ, List.mem_flatMap]; exact ⟨q, hq, hx⟩)
  rw [hv p rnd fenv hr (fun q hm => ⟨small_congr _ (fun x hx => hq q hm x (List.mem_append_left _ hx)) (hs q hm).1,
    small_congr _ (fun x hx => hq q hm x (List.mem_append_right _ hx)) (hs q hm).2⟩)]
  congr 2
  simp only [eq_iff_iff]
  exact ⟨fun h q hm => (holds_congr hr (hq q hm)).1 (h q hm), fun h q hm => (holds_congr hr (hq q hm)).2 (h q hm)⟩

include hi

mutual
theorem sim : ∀ {ss env t env'}, ExecP (Small p) ss env t env' → ∀ prog, FLines.Tr nm ss prog → steadys false ss = true →
    (∀ x ∈ varsL ss, x ∈ N) → ∀ fenv, Agree N env fenv →
    ∃ fenv', FProg.Run rnd prog fenv (t.map (ev nm)) fenv' ∧ Agree N env' fenv'
  | _, _, _, _, .nil env, _, ht, _, _, fenv, ha => by
    cases ht
    exact ⟨fenv, .nil fenv, ha⟩
  | _, _, _, _, .ass (x := x) (e := e) ho h, _, ht0, hs, hN, fenv, ha => by
    obtain ⟨_, _, rfl, hv, ht⟩ := tr_ass ht0
    simp only [steadys, steady, Bool.true_and] at hs
    simp only [varsL, readsS, reads, setsS, sets, List.mem_append, List.mem_singleton] at hN
    have hx : x ∈ N := hN x (Or.inr (Or.inl rfl))
    obtain ⟨f', h1, h2⟩ := sim h _ ht hs (fun y hy => by
      simp only [varsL, List.mem_append] at hy
      exact hN y (hy.elim (fun a => Or.inl (Or.inr a)) (fun a => Or.inr (Or.inr a)))) _ (ha.update hi hx _)
    exact ⟨f', .asg (int_val hr hv ha (fun y hy => hN y (Or.inl (Or.inl hy))) ho) h1, h2⟩
  | _, _, _, _, .user (args := args) ho h, _, ht0, hs, hN, fenv, ha => by
    obtain ⟨_, _, rfl, hv, ht⟩ := tr_user ht0
    simp only [steadys, steady, Bool.true_and] at hs
    simp only [varsL, readsS, reads, setsS, sets, List.mem_append, List.nil_append] at hN
    obtain ⟨f', h1, h2⟩ := sim h _ ht hs (fun y hy => by
      simp only [varsL, List.mem_append] at hy
      exact hN y (hy.elim (fun a => Or.inl (Or.inr a)) Or.inr)) _ ha
    have hc : ∀ e ∈ args, ∀ x ∈ readsE e, cenv fenv x = _ := fun e he =>
      ha.cenv fun x hx => hN x (Or.inl (Or.inl (mem_readsEs.2 ⟨e, he, hx⟩)))
    refine ⟨f', .call ?_ h1, h2⟩
    rw [hv p rnd fenv hr (fun e he => small_congr e (hc e he) (ho e he))]
    congr 1
    exact List.map_congr_left fun e he => eval_congr e (hc e he)
  | _, _, _, _, .guardT ho hq hb h, _, ht0, hs, hN, fenv, ha => by
    obtain ⟨_, _, _, rfl, hv, htb, ht⟩ := tr_guard ht0
    simp only [steadys, steady, Bool.and_eq_true] at hs
    simp only [varsL, readsS, reads, setsS, sets, List.mem_append] at hN
    obtain ⟨f1, h1, h2⟩ := sim hb _ htb hs.1 (fun y hy => by
      simp only [varsL, List.mem_append] at hy
      exact hN y (hy.elim (fun a => Or.inl (Or.inl (Or.inr a))) (fun a => Or.inr (Or.inl a)))) _ ha
    obtain ⟨f', g1, g2⟩ := sim h _ ht hs.2 (fun y hy => by
      simp only [varsL, List.mem_append] at hy
      exact hN y (hy.elim (fun a => Or.inl (Or.inr a)) (fun a => Or.inr (Or.inr a)))) _ h2
    refine ⟨f', ?_, g2⟩
    rw [List.map_append]
    refine .iteT ?_ h1 g1
    rw [cond_val hr hv ha (fun y hy => hN y (Or.inl (Or.inl (Or.inl hy)))) ho, decide_eq_true hq]
  | _, _, _, _, .guardF ho hq h, _, ht0, hs, hN, fenv, ha => by
    obtain ⟨_, _, _, rfl, hv, htb, ht⟩ := tr_guard ht0
    simp only [steadys, steady, Bool.and_eq_true] at hs
    simp only [varsL, readsS, reads, setsS, sets, List.mem_append] at hN
    obtain ⟨f', g1, g2⟩ := sim h _ ht hs.2 (fun y hy => by
      simp only [varsL, List.mem_append] at hy
      exact hN y (hy.elim (fun a => Or.inl (Or.inr a)) (fun a => Or.inr (Or.inr a)))) _ ha
    refine ⟨f', .iteF ?_ g1, g2⟩
    rw [cond_val hr hv ha (fun y hy => hN y (Or.inl (Or.inl (Or.inl hy)))) ho, decide_eq_false hq]
  | _, _, _, _, .for_ (it := it) (ub := ub) (lb := lb) (env := env) hol hou hf h, _, ht0, hs, hN, fenv, ha => by
    obtain ⟨_, _, _, _, rfl, hs1, hvl, hvu, htb, ht⟩ := tr_for ht0
    simp only [steadys, steady, readsO, Bool.and_eq_true, decide_eq_true_eq] at hs
    simp only [varsL, readsS, reads, setsS, sets, readsO, List.mem_append, List.mem_cons] at hN
    have hub : ∀ x ∈ readsE ub, x ≠ it ∧ x ∉ setsS _ := of_decide_eq_true hs.1.1.1.2
    have hx : it ∈ N := hN it (Or.inr (Or.inl (Or.inl rfl)))
    have hl : intVal rnd fenv _ = some (lb.eval env) :=
      int_val hr hvl ha (fun y hy => hN y (Or.inl (Or.inl (Or.inl (Or.inl hy))))) hol
    have hu : intVal rnd fenv _ = some (ub.eval env) :=
      int_val hr hvu ha (fun y hy => hN y (Or.inl (Or.inl (Or.inl (Or.inr hy))))) hou
    have hue : ub.eval (Function.update env it (lb.eval env)) = ub.eval env :=
      eval_congr ub fun y hy => Function.update_of_ne (hub y hy).1 _ _
    obtain ⟨f1, h1, h2⟩ := simFor hf hs1 _ htb hs.1.2 hs.1.1.1.1 hub hx (fun y hy => by
      simp only [varsL, List.mem_append] at hy
      exact hN y (hy.elim (fun a => Or.inl (Or.inl (Or.inr a))) (fun a => Or.inr (Or.inl (Or.inr a))))) _
      (ha.update hi hx (lb.eval env))
    rw [hue, Function.update_self] at h1
    obtain ⟨f', g1, g2⟩ := sim h _ ht hs.2 (fun y hy => by
      simp only [varsL, List.mem_append] at hy
      exact hN y (hy.elim (fun a => Or.inl (Or.inr a)) (fun a => Or.inr (Or.inr a)))) _ h2
    refine ⟨f', ?_, g2⟩
    rw [List.map_append]
    refine .loop hl hu rfl (by decide) ?_ g1
    rw [Int.tdiv_one]
    exact h1
theorem simFor : ∀ {it ub s body env t env'}, ForExecP (Small p) it ub s body env t env' → s = 1 →
    ∀ prog, FLines.Tr nm body prog → steadys false body = true → it ∉ setsS body →
    (∀ x ∈ readsE ub, x ≠ it ∧ x ∉ setsS body) → it ∈ N → (∀ x ∈ varsL body, x ∈ N) → ∀ fenv, Agree N env fenv →
    ∃ fenv', RunDo rnd (fold it) 1 prog (ub.eval env - env it + 1).toNat fenv (t.map (ev nm)) fenv' ∧ Agree N env' fenv'
  | it, ub, _, _, env, _, _, .done h, _, _, _, _, _, _, _, _, fenv, ha => by
    refine ⟨fenv, ?_, ha⟩
    have e : (ub.eval env - env it + 1).toNat = 0 := by omega
    rw [e]
    exact .done
  | it, ub, s, _, env, _, _, .step (env1 := env1) h hb hf, hs1, prog, ht, hs, h1, h2, hx, hN, fenv, ha => by
    obtain ⟨f1, k1, k2⟩ := sim hb _ ht hs hN _ ha
    have he := exec_of hb
    have hit : env1 it = env it := exec_keeps he it h1
    obtain ⟨f', g1, g2⟩ := simFor hf hs1 _ ht hs h1 h2 hx hN _ (k2.update hi hx (env1 it + _))
    have hue : ub.eval (Function.update env1 it (env1 it + s)) = ub.eval env :=
      eval_congr ub fun y hy => by rw [Function.update_of_ne (h2 y hy).1, exec_keeps he y (h2 y hy).2]
    rw [hue, Function.update_self, hit, hs1] at g1
    refine ⟨f', ?_, g2⟩
    have e : (ub.eval env - env it + 1).toNat = (ub.eval env - (env it + 1) + 1).toNat + 1 := by omega
    rw [e, List.map_append]
    refine .iter k1 ?_ ?_
    · rw [k2 it hx, ha it hx, hit]
    · rw [k2 it hx, hit]
      exact g1
end

end

/-! ## C78 -/

mutual
theorem plain_lives {nm : Nat → String} : ∀ s, plain nm s = true → dies (emb s) = false
  | .ass _ _, _ => rfl
  | .user _ _, _ => rfl
  | .block _, h => by simp [plain] at h
  | .guard _ b, h => by
    rw [emb, dies]
    exact plains_live b (by simpa [plain] using h)
  | .for_ it lb ub s b, h => by
    simp only [plain, Bool.and_eq_true] at h
    rw [emb, dies, plains_live b h.2]
    simpa using h.1.1
theorem plains_live {nm : Nat → String} : ∀ ss, plains nm ss = true → diess (embs ss) = false
  | [], _ => rfl
  | s :: ss, h => by
    simp only [plains, Bool.and_eq_true] at h
    rw [embs, diess, plain_lives s h.1, plains_live ss h.2]
    rfl
end

/-- The text printed for Fortran is a program, in one way, and this program makes the calls of the clast,
in the same order with the same arguments, and no others. -/
theorem C78_statements_partial {f : Cfg} (hl : f.lang = .fortran) (hb : f.callable = true ∨ ∀ k, f.body k = none)
    {ss : List Stmt} (hk : fKit.Ss (nmOf f) ss = true) (hp : plains (nmOf f) ss = true)
    (hi : Apart (varsL ss)) (he : f.callable = false ∨ ss ≠ []) (n : Nat) :
    ∃ T prog, pprint f n (.root :: embs ss) = some T ∧ (∀ q, Program T q ↔ q = prog) ∧
      (steadys false ss = true → ∀ p rnd, Nearest p rnd → ∀ env t env', ExecP (Small p) ss env t env' →
      ∀ fenv, Agree (varsL ss) env fenv →
        (∃ fenv', FProg.Run rnd prog fenv (t.map (ev (nmOf f))) fenv' ∧ Agree (varsL ss) env' fenv') ∧
        ∀ t' fenv', FProg.Run rnd prog fenv t' fenv' → t' = t.map (ev (nmOf f)) ∧ Agree (varsL ss) env' fenv') := by
  obtain ⟨T, prog, h1, ⟨ls, h2, h3⟩, h4⟩ := stmts_read hl hb ss n hk hp
  refine ⟨T, prog, ?_, ?_, ?_⟩
  · have hd : diess (.root :: embs ss) = false := by rw [diess, dies, plains_live ss hp]; rfl
    rw [pprint, if_neg (by simp [hd]), stmtsC, stmtC, h1]
    have : (f.callable && (embs ss).isEmpty) = false := by
      rcases he with he | he
      · simp [he]
      · cases ss with
        | nil => exact absurd rfl he
        | cons s ss => simp [embs]
    rw [this]
    rfl
  · have key : Program T prog := by
      refine ⟨ls, h2.whole, ?_⟩
      have := h3 [] [] [] (.stop (fun l hl => by cases hl))
      simpa using this
    intro q
    constructor
    · exact fun h => program_det h key
    · rintro rfl
      exact key
  · intro hs p rnd hr env t env' hx fenv ha
    obtain ⟨f', g1, g2⟩ := sim hr hi hx prog h4 hs (fun x hx => hx) fenv ha
    refine ⟨⟨f', g1, g2⟩, fun t' f'' h => ?_⟩
    obtain ⟨e1, e2⟩ := run_det h g1
    exact ⟨e1, by rw [e2]; exact g2⟩

/-- The same for the clast of a loop tree.  Hypotheses that can be looked up in the clast: no blocks, strides
of one, both bounds, names that differ without case, loops that do not change their variables. -/
theorem C78_program_partial {f : Cfg} (hl : f.lang = .fortran) (hb : f.callable = true ∨ ∀ k, f.body k = none)
    (hnm : ∀ k, name (nmOf f k) = true) {cx : Ctx} (hc : CtxPrintK fKit cx) {icmp : Int → Int → Int}
    {loops : List Loop} (ho : loopsOKK fKit loops = true) {ss : List Stmt} (h : clastCreate cx icmp loops = some ss)
    (hp : plains (nmOf f) ss = true) (hi : Apart (varsL ss))
    (he : f.callable = false ∨ ss ≠ []) (n : Nat) :
    ∃ T prog, pprint f n (.root :: embs ss) = some T ∧ (∀ q, Program T q ↔ q = prog) ∧
      (steadys false ss = true → ∀ p rnd, Nearest p rnd → ∀ env t env', ExecP (Small p) ss env t env' →
      ∀ fenv, Agree (varsL ss) env fenv →
        (∃ fenv', FProg.Run rnd prog fenv (t.map (ev (nmOf f))) fenv' ∧ Agree (varsL ss) env' fenv') ∧
        ∀ t' fenv', FProg.Run rnd prog fenv t' fenv' → t' = t.map (ev (nmOf f)) ∧ Agree (varsL ss) env' fenv') :=
  C78_statements_partial hl hb (insertLoops_ok hnm hc loops 0 [] (fun _ => none) (fun _ => rfl) ho h) hp hi he n

/-- The Fortran program printed for a loop tree makes the calls of the tree.  Besides the hypotheses of C25
(about the tree) and those of `C78_program_partial`, the divisions that are done with reals meet small operands
while the clast runs. -/
theorem C78_tree_partial {f : Cfg} (hl : f.lang = .fortran) (hb : f.callable = true ∨ ∀ k, f.body k = none)
    (hnm : ∀ k, name (nmOf f k) = true) {cx : Ctx} (hc : CtxPrintK fKit cx) (hsort : ∀ l, (cx.sort l).Perm l)
    (hgsort : ∀ l, (cx.gsort l).Perm l) (hn : NamesOK cx.nm) {icmp : Int → Int → Int} {loops : List Loop}
    (ho : loopsOKK fKit loops = true) {ss : List Stmt} (h : clastCreate cx icmp loops = some ss)
    (hp : plains (nmOf f) ss = true) (hi : Apart (varsL ss))
    (he : f.callable = false ∨ ss ≠ []) (n : Nat) :
    ∃ T prog, pprint f n (.root :: embs ss) = some T ∧ (∀ q, Program T q ↔ q = prog) ∧
      ∀ (v x : Nat → Int) (tr : List Event),
      Props.ClastExec.WfLoops cx v 0 (fun _ => false) [] (fun _ => none) (fun _ => True) loops →
      TreeRun cx.nm v 0 loops x tr → ∀ fenv : String → Int, (∀ k, k < cx.nm.nPar → fenv (fold (cx.nm.param k)) = v k) →
      ∀ p rnd, Nearest p rnd →
      (∀ t env', Exec ss (cenv fenv) t env' → ExecP (Small p) ss (cenv fenv) t env') →
        (∃ fenv', FProg.Run rnd prog fenv (tr.map (ev (nmOf f))) fenv') ∧
        ∀ t' fenv', FProg.Run rnd prog fenv t' fenv' → t' = tr.map (ev (nmOf f)) := by
  obtain ⟨T, prog, h1, h2, h3⟩ := C78_program_partial hl hb hnm hc ho h hp hi he n
  refine ⟨T, prog, h1, h2, fun v x tr hW hrun fenv hv p rnd hr hsm => ?_⟩
  obtain ⟨⟨env', hx⟩, _⟩ := Props.ClastExec.C25_program_executes_tree_partial cx hsort hgsort hn icmp v x loops tr hW hrun ss h
    (cenv fenv) hv
  have hs := (insertLoops_steady hsort hn loops 0 [] (fun _ => none) (wfs_early hW (fun _ h => by simp at h)) h).1
  obtain ⟨⟨f', g1, -⟩, g2⟩ := h3 hs p rnd hr _ _ _ (hsm _ _ hx) fenv (fun _ _ => rfl)
  exact ⟨⟨f', g1⟩, fun t' f'' hx => (g2 t' f'' hx).1⟩

/-- When the operands of the divisions are small for all values of the iterators (as when they only have
parameters), they are while the clast runs. -/
theorem small_of {p : Nat} {ss : List Stmt} {env : Env}
    (h : ∀ e ∈ exprsL ss, ∀ env' : Env, (∀ y, y ∉ setsS ss → env' y = env y) → Small p env' e) {t : List Event}
    {env' : Env} (hx : Exec ss env t env') : ExecP (Small p) ss env t env' :=
  execP_of (ok := Small p) (W := setsS ss) (env0 := env) hx (fun _ h => h) (fun _ _ => rfl) (fun e he env hk => h e he env hk)

/-! ### Where it fails -/

/-- Fortran without bodies. -/
def exF : Cfg := ⟨.fortran, false, fun _ => none, fun _ => none⟩

/-- A loop with a stride: the stride is printed right behind the last value, and the program makes no call
though the clast makes one. -/
theorem C78_stride : ∃ T prog, pprint exF 0 [.root, .for_ "i" (some (.cst (-1))) (some (.cst (-1))) 2 {}
      [.user 1 [(none, .name "i")]]] = some T ∧ Program T prog ∧
    (∀ env, ∃ env', Exec [.for_ "i" (some (.cst (-1))) (some (.cst (-1))) 2 [.user 1 [.name "i"]]] env [⟨1, [-1]⟩] env') ∧
    ∀ p rnd, Nearest p rnd → ∀ fenv t fenv', FProg.Run rnd prog fenv t fenv' → t = [] := by
  obtain ⟨T, prog, h1, h2, h3⟩ := C78_statements_partial (f := exF) rfl (Or.inr fun _ => rfl)
    (ss := [.for_ "i" (some (.cst (-1))) (some (.cst (-12))) 1 [.user 1 [.name "i"]]])
    (by decide +kernel) (by decide +kernel) (by decide +kernel) (Or.inl rfl) 0
  refine ⟨T, prog, ?_, (h2 _).2 rfl, ?_, ?_⟩
  · rw [← h1]
    decide +kernel
  · intro env
    refine ⟨_, .for_ (t1 := [⟨1, [-1]⟩]) (t2 := []) (.step (t1 := [⟨1, [-1]⟩]) (t2 := []) ?_ (.user (.nil _)) (.done ?_)) (.nil _)⟩
    · simp [Expr.eval]
    · simp [Expr.eval]
  · intro p rnd hr fenv t fenv' hx
    have he : ExecP (Small p) [.for_ "i" (some (.cst (-1))) (some (.cst (-12))) 1 [.user 1 [.name "i"]]] (cenv fenv) []
        (Function.update (cenv fenv) "i" (-1)) :=
      .for_ (t1 := []) (t2 := []) trivial trivial (.done (by simp [Expr.eval])) (.nil _)
    exact ((h3 (by decide +kernel) p rnd hr _ _ _ he fenv (fun _ _ => rfl)).2 t fenv' hx).1

/-- A block is printed with braces; the text is no Fortran program. -/
theorem C78_block : ∃ T, pprint exF 0 [.root, .block [.user 1 []]] = some T ∧ ∀ prog, ¬ Program T prog := by
  refine ⟨"{\n  S1()\n}\n".toList, by decide +kernel, ?_⟩
  rintro prog ⟨ls, h1, h2⟩
  have : lines "{\n  S1()\n}\n".toList = some [[.lbrace], [.id "S1", .lpar, .rpar], [.rbrace]] := by decide +kernel
  rw [this] at h1
  cases h1
  cases h2 with
  | call h _ => cases h
  | ite h _ _ _ => cases h
  | loop h _ _ _ => cases h

/-! ### Examples -/

/-- Two nested loops, a condition with two parts, an assignment and two calls. -/
def exP : List Stmt := [.for_ "i" (some (.cst 0)) (some (.name "N")) 1
  [.ass "k" (.red .sum [.term 2 (.name "i"), .cst (-1)]),
   .for_ "j" (some (.red .max [.term 1 (.name "i"), .cst 1])) (some (.bin .fdiv (.red .sum [.term 1 (.name "N"), .term 1 (.name "i")]) 2)) 1
    [.guard [⟨.name "k", .cst 0, 1⟩, ⟨.bin .mod (.name "j") 2, .cst 0, 0⟩] [.user 1 [.name "i", .red .sum [.term 1 (.name "j"), .cst 1]]]],
   .user 2 []]]

example : pprint exF 2 (.root :: embs exP) = some "  DO i=0, N
    k = 2*i-1
    DO j=MAX(i,1), FLOOR(REAL(N+i)/REAL(2))
      IF ((k >= 0) .AND. (MOD(j, 2) == 0)) THEN
        S1((i),(j+1))
      END IF
    END DO
    S2()
  END DO
".toList := by decide +kernel

example : ∃ T prog, pprint exF 2 (.root :: embs exP) = some T ∧ (∀ q, Program T q ↔ q = prog) := by
  obtain ⟨T, prog, h1, h2, -⟩ := C78_statements_partial (f := exF) rfl (Or.inr fun _ => rfl) (ss := exP)
    (by decide +kernel) (by decide +kernel) (by decide +kernel) (Or.inl rfl) 2
  exact ⟨T, prog, h1, h2⟩

/-- The clast of the tree of C25. -/
def exS : List Stmt := [.for_ "i" (some (.red .max [.cst 0])) (some (.red .min [.red .sum [.term 1 (.name "N")]])) 1
  [.guard [⟨.term 1 (.name "i"), .red .min [.bin .fdiv (.red .sum [.term 1 (.name "N"), .cst (-1)]) 2], -1⟩]
    [.user 7 [.term 1 (.name "i"), .red .sum [.term 1 (.name "i"), .cst 1]]]]]

theorem exS_eq : clastCreate Props.ClastExec.exC gmpCmp Props.ClastExec.exTree = some exS := rfl

theorem fold_N : fold "N" = "n" := by decide +kernel

/-- Fortran with the statement names of C35's examples. -/
def exG : Cfg := ⟨.fortran, false, fun k => some (Props.PPrint.exStmt k), fun _ => none⟩

-- The tree of C25 for `N = 3`, single precision.
example : ∃ T prog, pprint exG 0 (.root :: embs exS) = some T ∧ Program T prog ∧
    ∀ rnd, Nearest 24 rnd → ∀ fenv : String → Int, fenv "n" = 3 →
      ∃ fenv', FProg.Run rnd prog fenv [⟨Props.PPrint.exStmt 7, [0, 1]⟩, ⟨Props.PPrint.exStmt 7, [1, 2]⟩] fenv' := by
  obtain ⟨T, prog, h1, h2, h3⟩ := C78_tree_partial (f := exG) (n := 0) rfl (Or.inr fun _ => rfl) Props.PPrint.exStmt_ok
    exC_fortran (fun l => List.Perm.refl l) (fun l => List.Perm.refl l) Props.ClastExec.exN_ok (by decide) exS_eq
    (by decide +kernel) (by decide +kernel) (Or.inl rfl)
  refine ⟨T, prog, h1, (h2 _).2 rfl, fun rnd hr fenv hv => ?_⟩
  have hv' : ∀ k, k < Props.ClastExec.exC.nm.nPar → fenv (fold (Props.ClastExec.exC.nm.param k)) = (fun _ => 3) k := by
    intro k _
    rw [show Props.ClastExec.exC.nm.param k = "N" from rfl, fold_N]
    exact hv
  have hsm : ∀ e ∈ exprsL exS, ∀ env' : Env, (∀ y, y ∉ setsS exS → env' y = cenv fenv y) → Small 24 env' e := by
    intro e he env hk
    have hN : env "N" = 3 := by
      rw [hk "N" (by decide +kernel), cenv, fold_N]
      exact hv
    simp [exS, exprsL, exprs] at he
    rcases he with rfl | rfl | rfl | rfl | rfl | rfl <;> simp [Small, Smalls, Expr.eval, evalList, RedType.eval, hN]
  exact (h3 (fun _ => 3) (fun _ => 0) _ (Props.ClastExec.exTree_wf _ true) (Props.ClastExec.exTree_run _) fenv hv' 24 rnd hr
    (fun t env' => small_of hsm)).1

end Verif.Props.FProg
