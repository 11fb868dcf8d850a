import Verif.Lemmas.PGlue
import Verif.Model.ClastSem

/-!
# Printed statements parse to a program with the same executions
-/

namespace Verif.PStmt
open Verif.CText Verif.CParse Verif.Clast Verif.ClastGen Verif.PPrint Verif.PLex Verif.PExpr Verif.PGlue

/-- A usable name: an identifier that is not a keyword. -/
def name (s : String) : Bool := ident s && !keyword s

/-- A printable expression. -/
def okE (e : Expr) : Bool := ok e && idents e

/-- A printable optional expression. -/
def okO : Option Expr → Bool
  | some e => okE e
  | none => true

mutual
/-- The statements that are printed right. -/
def okS (nm : Nat → String) : Stmt → Bool
  | .ass x e => name x && okE e
  | .user k args => name (nm k) && args.all okE
  | .block body => okSs nm body
  | .guard qs body => !qs.isEmpty && qs.all (fun (q : Eqn) => okE q.lhs && okE q.rhs) && okSs nm body
  | .for_ it lb ub s body => name it && okO lb && okO ub && decide (0 < s) && okSs nm body
/-- All of them. -/
def okSs (nm : Nat → String) : List Stmt → Bool
  | [] => true
  | s :: ss => okS nm s && okSs nm ss
end

/-! ## Tokens -/

theorem tokens_append (a b : List Piece) : tokens (a ++ b) = tokens a ++ tokens b := by
  induction a with
  | nil => rfl
  | cons p a ih => cases p <;> simp [tokens, ih]

theorem tokens_toks (ts : List Tok) : tokens (toks ts) = ts := by
  induction ts with
  | nil => rfl
  | cons t ts ih => simp only [toks, List.map_cons, tokens] at ih ⊢; rw [ih]

/-! ## Translation -/

/-- The same value. -/
def SameE (e : Expr) (c : CExpr) : Prop := ∀ env, c.eval env = e.eval env

/-- The C statements have the structure and the values of the clast. -/
inductive Tr (nm : Nat → String) : List Stmt → List CStmt → Prop
  | nil : Tr nm [] []
  | ass {x e c ss cs} : SameE e c → Tr nm ss cs → Tr nm (.ass x e :: ss) (.asg x c :: cs)
  | user {k args cargs ss cs} : (∀ env, CExpr.evals env cargs = args.map (Expr.eval env)) → Tr nm ss cs →
      Tr nm (.user k args :: ss) (.expr (.call (nm k) cargs) :: cs)
  | block {body b ss cs} : Tr nm body b → Tr nm ss cs → Tr nm (.block body :: ss) (.block b :: cs)
  | guard {qs body c b ss cs} : (∀ env, CExpr.eval env c ≠ 0 ↔ ∀ q ∈ qs, Eqn.holds env q) → Tr nm body b → Tr nm ss cs →
      Tr nm (.guard qs body :: ss) (.ite c b :: cs)
  | for_ {it lb ub s body init test st b ss cs} :
      (∀ e, lb = some e → ∃ c, init = some (it, c) ∧ SameE e c) →
      (∀ e, ub = some e → ∃ c, test = some (.bin .le (.var it) c) ∧ SameE e c) →
      (∀ env, CExpr.eval env st = s) → Tr nm body b → Tr nm ss cs →
      Tr nm (.for_ it lb ub s body :: ss) (.loop init test it st b :: cs)

/-- An executed statement instance as a C call. -/
def ev (nm : Nat → String) (e : Event) : CEvent := ⟨nm e.stmt, e.args⟩

theorem le_ne (a b : Int) : BOp.eval .le a b ≠ 0 ↔ a ≤ b := by
  simp only [BOp.eval, ofBool]
  by_cases h : a ≤ b <;> simp [h]

mutual
theorem exec_run {nm : Nat → String} : ∀ {ss env t env'}, Exec ss env t env' → ∀ {cs}, Tr nm ss cs →
    Run cs env (t.map (ev nm)) env'
  | _, _, _, _, .nil env, _, h => by cases h; exact .nil env
  | _, _, _, _, .ass h1, _, h => by
    cases h with
    | ass hs ht => exact .asg (by rw [hs]; exact exec_run h1 ht)
  | _, _, _, _, .user h1, _, h => by
    cases h with
    | user hs ht => exact .expr (by simp only [callEvent, hs]; rfl) (exec_run h1 ht)
  | _, _, _, _, .block h1 h2, _, h => by
    cases h with
    | block hb ht =>
      rw [List.map_append]
      exact .block (exec_run h1 hb) (exec_run h2 ht)
  | _, _, _, _, .guardT h0 h1 h2, _, h => by
    cases h with
    | guard hc hb ht =>
      rw [List.map_append]
      exact .iteT ((hc _).2 h0) (exec_run h1 hb) (exec_run h2 ht)
  | _, _, _, _, .guardF h0 h1, _, h => by
    cases h with
    | guard hc hb ht => exact .iteF (by by_contra h; exact h0 ((hc _).1 h)) (exec_run h1 ht)
  | _, _, _, _, .for_ h1 h2, _, h => by
    cases h with
    | for_ hl hu hs hb ht =>
      obtain ⟨c, rfl, hc⟩ := hl _ rfl
      obtain ⟨u, rfl, hu'⟩ := hu _ rfl
      rw [List.map_append]
      refine .loopI ?_ (exec_run h2 ht)
      rw [hc]
      exact for_run h1 hu' hs hb
theorem for_run {nm : Nat → String} : ∀ {it ub s body env t env'}, ForExec it ub s body env t env' →
    ∀ {u st b}, SameE ub u → (∀ env, CExpr.eval env st = s) → Tr nm body b →
    RunLoop (some (.bin .le (.var it) u)) it st b env (t.map (ev nm)) env'
  | _, _, _, _, _, _, _, .done h, _, _, _, hu, _, _ => by
    refine .done ?_
    by_contra hne
    simp only [CExpr.eval] at hne
    rw [← ne_eq, le_ne, hu] at hne
    exact h hne
  | _, _, _, _, _, _, _, .step h h1 h2, _, _, _, hu, hs, hb => by
    rw [List.map_append]
    refine .iter ?_ (exec_run h1 hb) ?_
    · intro c hc
      cases hc
      simp only [CExpr.eval]
      rw [le_ne, hu]
      exact h
    · rw [hs]
      exact for_run h2 hu hs hb
end

/-! ## Conditions -/

/-- An equation of level 5 that is not 0 exactly when it holds. -/
theorem eqn_pv {q : Eqn} (h1 : okE q.lhs = true) (h2 : okE q.rhs = true) :
    ∃ c, Parse 6 (tokens (printEqn q)) c ∧ ∀ env, CExpr.eval env c ≠ 0 ↔ Eqn.holds env q := by
  simp only [okE, Bool.and_eq_true] at h1 h2
  obtain ⟨a, ha, hva⟩ := (printed _ h1.1).pv
  obtain ⟨b, hb, hvb⟩ := (printed _ h2.1).pv
  have hx : tokens (printEqn q) = printExpr q.lhs ++ relTok q.sign :: printExpr q.rhs := by
    simp [printEqn, tokens_append, tokens_toks, tokens, sp]
  rw [hx]
  unfold relTok
  by_cases h0 : q.sign = 0
  · rw [if_pos h0]
    refine ⟨.bin .eq a b, .lift (by omega) (.bin (o := .eq) rfl rfl (.lift (by omega) (.lift (by omega) ha))
      (.lift (by omega) hb)), ?_⟩
    intro env
    simp only [CExpr.eval, hva, hvb, BOp.eval, ofBool, Eqn.holds, h0]
    by_cases h : q.lhs.eval env = q.rhs.eval env <;> simp [h]
  · by_cases hp : 0 < q.sign
    · rw [if_neg h0, if_pos hp]
      refine ⟨.bin .ge a b, .lift (by omega) (.lift (by omega) (.bin (o := .ge) rfl rfl (.lift (by omega) ha) hb)), ?_⟩
      intro env
      simp only [CExpr.eval, hva, hvb, BOp.eval, ofBool, Eqn.holds, hp, gt_iff_lt, if_true]
      by_cases h : q.rhs.eval env ≤ q.lhs.eval env <;> simp [h]
    · rw [if_neg h0, if_neg hp]
      refine ⟨.bin .le a b, .lift (by omega) (.lift (by omega) (.bin (o := .le) rfl rfl (.lift (by omega) ha) hb)), ?_⟩
      intro env
      simp only [CExpr.eval, hva, hvb, BOp.eval, ofBool, Eqn.holds, hp, h0, gt_iff_lt, if_false]
      by_cases h : q.lhs.eval env ≤ q.rhs.eval env <;> simp [h]

/-- An equation is printable. -/
def okQ (q : Eqn) : Bool := okE q.lhs && okE q.rhs

theorem eqns_pv : ∀ (qs : List Eqn), qs.all okQ = true → ∀ (p : List Tok) (c : CExpr) (P : Env → Prop), Parse 6 p c →
    (∀ env, CExpr.eval env c ≠ 0 ↔ P env) →
    ∃ c', Parse 6 (p ++ tokens (printEqns qs)) c' ∧
      ∀ env, CExpr.eval env c' ≠ 0 ↔ P env ∧ ∀ q ∈ qs, Eqn.holds env q
  | [], _, p, c, P, hp, hv => ⟨c, by simpa [printEqns, tokens] using hp, by simpa using hv⟩
  | q :: qs, h, p, c, P, hp, hv => by
    simp only [List.all_cons, Bool.and_eq_true, okQ] at h
    obtain ⟨b, hb, hvb⟩ := eqn_pv h.1.1 h.1.2
    have hpar : Parse 5 (.lpar :: (tokens (printEqn q) ++ [.rpar])) b :=
      .lift (by omega) (.lift (by omega) (.lift (by omega) (.lift (by omega) (.lift (by omega) (.paren hb)))))
    obtain ⟨c', h1, h2⟩ := eqns_pv qs h.2 _ (.bin .and c b) (fun env => P env ∧ Eqn.holds env q)
      (.bin (t := .andand) rfl rfl hp hpar) (by
        intro env
        have e1 : (CExpr.eval env (.bin .and c b) ≠ 0) ↔ (CExpr.eval env c ≠ 0 ∧ CExpr.eval env b ≠ 0) := by
          simp only [CExpr.eval, BOp.eval, ofBool]
          by_cases hh : CExpr.eval env c ≠ 0 ∧ CExpr.eval env b ≠ 0 <;> simp [hh]
        rw [e1, hv, hvb])
    refine ⟨c', ?_, ?_⟩
    · simpa [printEqns, tokens, tokens_append, sp] using h1
    · intro env
      rw [h2]
      simp only [List.mem_cons, forall_eq_or_imp, and_assoc]

theorem cond_pv {qs : List Eqn} (hne : qs ≠ []) (h : qs.all okQ = true) :
    ∃ p c, tokens (printCond qs) = .lpar :: (p ++ [.rpar]) ∧ Parse 6 p c ∧
      ∀ env, CExpr.eval env c ≠ 0 ↔ ∀ q ∈ qs, Eqn.holds env q := by
  match qs, hne, h with
  | [q], _, h =>
    have h' : okE q.lhs = true ∧ okE q.rhs = true := by simpa [okQ] using h
    obtain ⟨c, hc, hv⟩ := eqn_pv h'.1 h'.2
    exact ⟨_, c, by simp [printCond, tokens, tokens_append], hc, by simpa using hv⟩
  | q :: q2 :: qs, _, h =>
    simp only [List.all_cons, Bool.and_eq_true, okQ] at h
    obtain ⟨b, hb, hvb⟩ := eqn_pv h.1.1 h.1.2
    have hpar : Parse 6 (.lpar :: (tokens (printEqn q) ++ [.rpar])) b :=
      .lift (by omega) (.lift (by omega) (.lift (by omega) (.lift (by omega) (.lift (by omega)
        (.lift (by omega) (.paren hb))))))
    obtain ⟨c, h1, h2⟩ := eqns_pv (q2 :: qs) (by simpa [okQ] using h.2) _ _ _ hpar hvb
    refine ⟨_, c, ?_, h1, ?_⟩
    · simp [printCond, tokens, tokens_append]
    · intro env
      rw [h2]
      simp

/-! ## Arguments -/

theorem arg_pv {e : Expr} (h : okE e = true) :
    ∃ c, Parse 6 (parens (safer e) (printExpr e)) c ∧ SameE e c := by
  simp only [okE, Bool.and_eq_true] at h
  have hp := (printed e h.1).pv
  have : PV 6 (parens (safer e) (printExpr e)) (fun env => e.eval env) := by
    unfold parens
    split
    · exact (hp.paren (k := 3) (by omega)).mono (by omega) (by omega)
    · exact hp.mono (by omega) (by omega)
  obtain ⟨c, h1, h2, _⟩ := this
  exact ⟨c, h1, h2⟩

theorem args_pv : ∀ (args : List Expr), args ≠ [] → args.all okE = true →
    ∃ cs, ParseArgs (printArgs args) cs ∧ ∀ env, CExpr.evals env cs = args.map (Expr.eval env)
  | [], h, _ => absurd rfl h
  | [e], _, h => by
    obtain ⟨c, hc, hv⟩ := arg_pv (e := e) (by simpa using h)
    exact ⟨[c], by simpa [printArgs] using .one hc, fun env => by simp [CExpr.evals, hv env]⟩
  | e :: e2 :: es, _, h => by
    simp only [List.all_cons, Bool.and_eq_true] at h
    obtain ⟨c, hc, hv⟩ := arg_pv h.1
    obtain ⟨cs, hcs, hvs⟩ := args_pv (e2 :: es) (by simp) (by simpa using h.2)
    exact ⟨c :: cs, by rw [printArgs]; exact .cons hc hcs; simp, fun env => by simp [CExpr.evals, hv env, hvs]⟩

theorem call_pv (f : String) (args : List Expr) (h : args.all okE = true) :
    ∃ cs, Parse 0 (.id f :: .lpar :: (printArgs args ++ [.rpar])) (.call f cs) ∧
      ∀ env, CExpr.evals env cs = args.map (Expr.eval env) := by
  by_cases hn : args = []
  · subst hn
    exact ⟨[], by simpa [printArgs] using Parse.call0 f, fun env => by simp [CExpr.evals]⟩
  · obtain ⟨cs, h1, h2⟩ := args_pv args hn h
    exact ⟨cs, .call h1, h2⟩

/-! ## Parsing -/

theorem parse6 {k : Nat} {p : List Tok} {c : CExpr} (hk : k ≤ 6) (h : Parse k p c) : Parse 6 p c := by
  have : ∀ n, k + n ≤ 6 → Parse (k + n) p c := by
    intro n
    induction n with
    | zero => intro _; exact h
    | succ n ih => intro hn; exact .lift (Nat.lt_of_lt_of_le (Nat.lt_succ_self _) hn) (ih (Nat.le_of_succ_le hn))
  have h6 := this (6 - k) (by omega)
  rwa [show k + (6 - k) = 6 by omega] at h6

theorem expr_parse_macros {e : Expr} (h : okE e = true) :
    ∃ c, Parse 6 (printExpr e) c ∧ SameE e c ∧ onlyMacros c = true := by
  simp only [okE, Bool.and_eq_true] at h
  exact (printed e h.1).pv.mono (by omega) (by omega)

theorem expr_parse {e : Expr} (h : okE e = true) : ∃ c, Parse 6 (printExpr e) c ∧ SameE e c := by
  obtain ⟨c, h1, h2, _⟩ := expr_parse_macros h
  exact ⟨c, h1, h2⟩

theorem init_parse {it : String} {lb : Option Expr} (h : okO lb = true) :
    ∃ init, ParseInit (printInit it lb) init ∧
      ∀ e, lb = some e → ∃ c, init = some (it, c) ∧ SameE e c := by
  cases lb with
  | none => exact ⟨none, .none, fun e h => by cases h⟩
  | some e =>
    obtain ⟨c, hc, hs⟩ := expr_parse (e := e) h
    exact ⟨some (it, c), .some hc, fun e' h' => by cases h'; exact ⟨c, rfl, hs⟩⟩

theorem test_parse {it : String} {ub : Option Expr} (h : okO ub = true) :
    ∃ test, ParseTest (printTest it ub) test ∧
      ∀ e, ub = some e → ∃ c, test = some (.bin .le (.var it) c) ∧ SameE e c := by
  cases ub with
  | none => exact ⟨none, .none, fun e h => by cases h⟩
  | some e =>
    have h' : ok e = true := by simp only [okO, okE, Bool.and_eq_true] at h; exact h.1
    obtain ⟨c, hc, hs, _⟩ := (printed e h').pv
    refine ⟨some (.bin .le (.var it) c), .some ?_, fun e' h' => by cases h'; exact ⟨c, rfl, hs⟩⟩
    have hv : Parse 4 [.id it] (.var it) := .lift (by omega) (.lift (by omega) (.lift (by omega)
      (.lift (by omega) (.var it))))
    exact parse6 (k := 4) (by omega) (.bin (t := .le) rfl rfl hv hc)

theorem step_parse (it : String) {s : Int} (h : 0 < s) :
    ∃ p st, printStep it s = .semi :: (p ++ [.rpar]) ∧ ParseStep p it st ∧ ∀ env, CExpr.eval env st = s := by
  unfold printStep
  split
  · obtain ⟨c, hc, hv, _⟩ := printInt_pv s
    exact ⟨_, c, rfl, .add (parse6 (by omega) hc), hv⟩
  · exact ⟨_, _, rfl, .incr it, fun env => by simp only [CExpr.eval]; omega⟩

mutual
theorem stmt_parse (nm : Nat → String) : ∀ (s : Stmt) (n : Nat), okS nm s = true → ∀ {q ss cs}, ParseStmts q cs →
    Tr nm ss cs → ∃ c, ParseStmts (tokens (printStmt nm n s) ++ q) (c :: cs) ∧ Tr nm (s :: ss) (c :: cs)
  | .ass x e, n, h, q, ss, cs, hq, ht => by
    simp only [okS, name, Bool.and_eq_true, Bool.not_eq_true'] at h
    obtain ⟨c, hc, hs⟩ := expr_parse h.2
    refine ⟨.asg x c, ?_, .ass hs ht⟩
    have := ParseStmts.asg h.1.2 hc hq
    simpa [printStmt, tokens, tokens_append, tokens_toks, sp, nl] using this
  | .user k args, n, h, q, ss, cs, hq, ht => by
    simp only [okS, name, Bool.and_eq_true, Bool.not_eq_true'] at h
    obtain ⟨c, hc, hs⟩ := call_pv (nm k) args h.2
    refine ⟨.expr (.call (nm k) c), ?_, .user hs ht⟩
    have := ParseStmts.expr (fun s' hs' => by
      simp only [List.head?_cons, Option.some.injEq, Tok.id.injEq] at hs'
      rw [← hs']; exact h.1.2) (parse6 (by omega) hc) hq
    simpa [printStmt, tokens, tokens_append, tokens_toks, nl] using this
  | .block body, n, h, q, ss, cs, hq, ht => by
    simp only [okS] at h
    obtain ⟨b, hb, hbt⟩ := stmts_parse nm body (n + indentStep) h
    refine ⟨.block b, ?_, .block hbt ht⟩
    have := ParseStmts.block hb hq
    simpa [printStmt, tokens, tokens_append, nl, ind] using this
  | .guard qs body, n, h, q, ss, cs, hq, ht => by
    simp only [okS, Bool.and_eq_true, Bool.not_eq_true', List.isEmpty_eq_false_iff] at h
    obtain ⟨b, hb, hbt⟩ := stmts_parse nm body (n + indentStep) h.2
    obtain ⟨p, c, hp, hc, hv⟩ := cond_pv h.1.1 h.1.2
    refine ⟨.ite c b, ?_, .guard hv hbt ht⟩
    have := ParseStmts.ite hc hb hq
    simpa [printStmt, tokens, tokens_append, nl, sp, ind, hp] using this
  | .for_ it lb ub s body, n, h, q, ss, cs, hq, ht => by
    simp only [okS, Bool.and_eq_true, decide_eq_true_eq] at h
    obtain ⟨⟨⟨⟨_, h1⟩, h2⟩, h3⟩, h4⟩ := h
    obtain ⟨b, hb, hbt⟩ := stmts_parse nm body (n + indentStep) h4
    obtain ⟨init, hi, hi'⟩ := init_parse (it := it) h1
    obtain ⟨test, hte, hte'⟩ := test_parse (it := it) h2
    obtain ⟨p, st, hp, hst, hst'⟩ := step_parse it h3
    refine ⟨.loop init test it st b, ?_, .for_ hi' hte' hst' hbt ht⟩
    have := ParseStmts.loop hi hte hst hb hq
    simpa [printStmt, printHead, tokens, tokens_append, tokens_toks, nl, sp, ind, hp] using this
theorem stmts_parse (nm : Nat → String) : ∀ (ss : List Stmt) (n : Nat), okSs nm ss = true →
    ∃ cs, ParseStmts (tokens (printStmts nm n ss)) cs ∧ Tr nm ss cs
  | [], _, _ => ⟨[], .nil, .nil⟩
  | s :: ss, n, h => by
    simp only [okSs, Bool.and_eq_true] at h
    obtain ⟨cs, h1, h2⟩ := stmts_parse nm ss n h.2
    obtain ⟨c, h3, h4⟩ := stmt_parse nm s n h.1 h1 h2
    exact ⟨c :: cs, by simpa [printStmts, tokens, tokens_append, ind] using h3, h4⟩
end

/-! ## Reading the characters -/

theorem G.toks {b : Bool} {ts : List Tok} (h : G b ts) {prev : Option Tok} {ps : List Piece}
    (h1 : ∀ a, prev = some a → pre a = true ∧ a ≠ .minus) (h2 : ∀ a, post a = true → sepFrom (some a) ps) :
    sepFrom prev (PPrint.toks ts ++ ps) :=
  h prev ps (fun a ha => ⟨(h1 a ha).1, fun _ => (h1 a ha).2⟩) h2

theorem okE_glue {e : Expr} (h : okE e = true) : G true (printExpr e) := by
  simp only [okE, Bool.and_eq_true] at h
  exact (glue e h.1 h.2).any

theorem sepFrom_sp {prev : Option Tok} {ps : List Piece} (h : sepFrom none ps) : sepFrom prev (sp :: ps) :=
  ⟨by intro d hd; simp at hd; subst hd; decide, h⟩

theorem sepFrom_nl {prev : Option Tok} {ps : List Piece} (h : sepFrom none ps) : sepFrom prev (nl :: ps) :=
  ⟨by intro d hd; simp at hd; subst hd; decide, h⟩

theorem sepFrom_ind {n : Nat} {ps : List Piece} (h : sepFrom none ps) : sepFrom none (ind n :: ps) := by
  unfold ind
  cases n with
  | zero => exact h
  | succ n => exact ⟨by
      intro d hd
      rw [← List.replicate_succ] at hd
      rw [List.eq_of_mem_replicate hd]
      decide, h⟩

theorem sepFrom_tok {t : Tok} {ps : List Piece} (ho : tokOK t = true) (h : sepFrom (some t) ps) :
    sepFrom none (.tok t :: ps) := ⟨ho, fun a ha => (by cases ha), h⟩

theorem sepFrom_after {a t : Tok} {ps : List Piece} (ha : post a = true) (ht : after t = true)
    (h : sepFrom (some t) ps) : sepFrom (some a) (.tok t :: ps) :=
  ⟨after_ok ht, fun a' h' => by cases h'; exact sep_after ha ht, h⟩

theorem eqn_glue {q : Eqn} (h : okQ q = true) {prev : Option Tok} {ps : List Piece}
    (h1 : ∀ a, prev = some a → pre a = true ∧ a ≠ .minus) (h2 : ∀ a, post a = true → sepFrom (some a) ps) :
    sepFrom prev (printEqn q ++ ps) := by
  simp only [okQ, Bool.and_eq_true] at h
  rw [printEqn, List.append_assoc]
  apply G.toks (okE_glue h.1) h1
  intro a _
  refine sepFrom_sp (sepFrom_tok ?_ (sepFrom_sp ?_))
  · unfold relTok; split
    · rfl
    · split <;> rfl
  · exact G.toks (okE_glue h.2) (fun a ha => by cases ha) h2

theorem lpar_pre : ∀ a, some Tok.lpar = some a → pre a = true ∧ a ≠ .minus := by
  intro a ha; cases ha; exact ⟨rfl, by simp⟩

theorem eqns_glue : ∀ (qs : List Eqn), qs.all okQ = true → ∀ {ps : List Piece}, 
    sepFrom (some .rpar) ps → sepFrom (some .rpar) (printEqns qs ++ ps)
  | [], _, ps, h => h
  | q :: qs, h, ps, hps => by
    simp only [List.all_cons, Bool.and_eq_true] at h
    rw [printEqns]
    refine sepFrom_sp (sepFrom_tok rfl (sepFrom_sp (sepFrom_tok rfl ?_)))
    simp only [List.append_eq, List.append_assoc]
    apply eqn_glue h.1 lpar_pre
    intro a ha
    exact sepFrom_after ha rfl (eqns_glue qs h.2 hps)

theorem cond_glue {qs : List Eqn} (hne : qs ≠ []) (h : qs.all okQ = true) {ps : List Piece}
    (hps : sepFrom (some .rpar) ps) : sepFrom none (printCond qs ++ ps) := by
  match qs, hne, h with
  | [q], _, h =>
    rw [printCond]
    refine sepFrom_tok rfl ?_
    simp only [List.append_eq, List.append_assoc]
    apply eqn_glue (by simpa using h) lpar_pre
    intro a ha
    exact sepFrom_after ha rfl hps
  | q :: q2 :: qs, _, h =>
    simp only [List.all_cons, Bool.and_eq_true] at h
    rw [printCond]; swap; · simp
    refine sepFrom_tok rfl ⟨rfl, fun a ha => by cases ha; decide, ?_⟩
    simp only [List.append_eq, List.append_assoc]
    apply eqn_glue h.1 lpar_pre
    intro a ha
    refine sepFrom_after ha rfl ?_
    simp only [List.append_eq, List.append_assoc]
    apply eqns_glue _ (by simpa using h.2)
    exact sepFrom_after (a := .rpar) rfl rfl hps

theorem arg_glue {e : Expr} (h : okE e = true) : G true (parens (safer e) (printExpr e)) :=
  ((okE_glue h).parens (g := safer e)).any

theorem args_glue : ∀ (args : List Expr), args ≠ [] → args.all okE = true → G true (printArgs args)
  | [], h, _ => absurd rfl h
  | [e], _, h => by simpa [printArgs] using arg_glue (e := e) (by simpa using h)
  | e :: e2 :: es, _, h => by
    simp only [List.all_cons, Bool.and_eq_true] at h
    rw [printArgs]; swap; · simp
    exact G.op (t := .comma) (arg_glue h.1) (args_glue (e2 :: es) (by simp) (by simpa using h.2)) rfl rfl
      (fun _ => by simp)

/-- After a word, an operator that is not a word. -/
theorem sepFrom_word {a t : Tok} {ps : List Piece} (ha : isWord a = true) (ht : isWord t = false)
    (h : sepFrom (some t) ps) : sepFrom (some a) (.tok t :: ps) := by
  refine ⟨?_, fun a' h' => by cases h'; simp [sep, ha, ht], h⟩
  cases t <;> simp [isWord] at ht <;> rfl

/-- After an operator, a word. -/
theorem sepFrom_opw {a t : Tok} {ps : List Piece} (ha : isWord a = false) (ht : isWord t = true)
    (ho : tokOK t = true) (h : sepFrom (some t) ps) : sepFrom (some a) (.tok t :: ps) :=
  ⟨ho, fun a' h' => by cases h'; exact sep_op_word ha ht ho, h⟩

theorem semi_tail {a : Tok} (ha : post a = true) {ps : List Piece} (h : sepFrom none ps) :
    sepFrom (some a) (.tok .semi :: nl :: ps) := sepFrom_after ha rfl (sepFrom_nl h)

theorem step_glue {it : String} (hi : ident it = true) {s : Int} (hs : 0 < s) {a : Tok} (ha : sep a .semi = true)
    {ps : List Piece} (h : sepFrom (some .rpar) ps) : sepFrom (some a) (toks (printStep it s) ++ ps) := by
  unfold printStep
  split
  · refine ⟨rfl, fun a' h' => by cases h'; exact ha, ?_⟩
    refine sepFrom_opw rfl rfl hi (sepFrom_word rfl rfl ?_)
    have hg := (G.int s).any
    show sepFrom _ (toks (printInt s ++ [.rpar]) ++ ps)
    rw [toks_append, List.append_assoc]
    apply G.toks hg (fun a ha => by cases ha; exact ⟨rfl, by simp⟩)
    intro a ha
    exact sepFrom_after ha rfl h
  · refine ⟨rfl, fun a' h' => by cases h'; exact ha, ?_⟩
    refine sepFrom_opw rfl rfl hi (sepFrom_word rfl rfl ?_)
    exact ⟨rfl, fun a' h' => by cases h'; decide, h⟩

theorem post_semi {a : Tok} (ha : post a = true) : sep a .semi = true := sep_after ha rfl

theorem head_glue {it : String} (hi : ident it = true) {lb ub : Option Expr} (hl : okO lb = true) (hu : okO ub = true)
    {s : Int} (hs : 0 < s) {ps : List Piece} (h : sepFrom (some .rpar) ps) :
    sepFrom (some .lpar) (toks (printHead it lb ub s) ++ ps) := by
  have h2 : ∀ a, sep a .semi = true → sepFrom (some a) (toks (.semi :: (printTest it ub ++ printStep it s)) ++ ps) := by
    intro a ha
    refine ⟨rfl, fun a' h' => by cases h'; exact ha, ?_⟩
    cases ub with
    | none =>
      exact step_glue hi hs (by decide) h
    | some e =>
      refine sepFrom_opw rfl rfl hi (sepFrom_word rfl rfl ?_)
      show sepFrom _ (toks (printExpr e ++ printStep it s) ++ ps)
      rw [toks_append, List.append_assoc]
      apply G.toks (okE_glue hu) (fun a ha => by cases ha; exact ⟨rfl, by simp⟩)
      intro a ha
      exact step_glue hi hs (post_semi ha) h
  unfold printHead
  cases lb with
  | none => exact h2 .lpar (by decide)
  | some e =>
    refine sepFrom_opw rfl rfl hi (sepFrom_word rfl rfl ?_)
    show sepFrom _ (toks (printExpr e ++ _) ++ ps)
    rw [toks_append, List.append_assoc]
    apply G.toks (okE_glue hl) (fun a ha => by cases ha; exact ⟨rfl, by simp⟩)
    intro a ha
    exact h2 a (post_semi ha)

theorem name_ident {s : String} (h : name s = true) : ident s = true := by
  simp only [name, Bool.and_eq_true] at h; exact h.1

mutual
theorem stmt_glue (nm : Nat → String) : ∀ (s : Stmt) (n : Nat), okS nm s = true → ∀ {ps}, sepFrom none ps →
    sepFrom none (printStmt nm n s ++ ps)
  | .ass x e, n, h, ps, hps => by
    simp only [okS, Bool.and_eq_true] at h
    rw [printStmt]
    refine sepFrom_tok (name_ident h.1) (sepFrom_sp (sepFrom_tok rfl (sepFrom_sp ?_)))
    simp only [List.append_eq, List.append_assoc]
    apply G.toks (okE_glue h.2) (fun a ha => by cases ha)
    intro a ha
    exact semi_tail ha hps
  | .user k args, n, h, ps, hps => by
    simp only [okS, Bool.and_eq_true] at h
    rw [printStmt, List.append_assoc]
    refine sepFrom_tok (name_ident h.1) (sepFrom_word rfl rfl ?_)
    show sepFrom _ (toks (printArgs args ++ [.rpar, .semi]) ++ ([nl] ++ ps))
    rw [toks_append, List.append_assoc]
    by_cases hn : args = []
    · subst hn
      exact ⟨rfl, fun a ha => by cases ha; decide, sepFrom_after (a := .rpar) rfl rfl (sepFrom_nl hps)⟩
    · apply G.toks (args_glue args hn h.2) lpar_pre
      intro a ha
      exact sepFrom_after ha rfl (sepFrom_after (a := .rpar) rfl rfl (sepFrom_nl hps))
  | .block body, n, h, ps, hps => by
    simp only [okS] at h
    rw [printStmt]
    refine sepFrom_tok rfl (sepFrom_nl ?_)
    simp only [List.append_eq, List.append_assoc]
    exact stmts_glue nm body _ h (sepFrom_ind (sepFrom_tok rfl (sepFrom_nl hps)))
  | .guard qs body, n, h, ps, hps => by
    simp only [okS, Bool.and_eq_true, Bool.not_eq_true', List.isEmpty_eq_false_iff] at h
    rw [printStmt]
    refine sepFrom_tok rfl (sepFrom_sp ?_)
    simp only [List.append_eq, List.append_assoc]
    apply cond_glue h.1.1 h.1.2
    refine sepFrom_sp (sepFrom_tok rfl (sepFrom_nl ?_))
    simp only [List.append_eq, List.append_assoc]
    exact stmts_glue nm body _ h.2 (sepFrom_ind (sepFrom_tok rfl (sepFrom_nl hps)))
  | .for_ it lb ub s body, n, h, ps, hps => by
    simp only [okS, Bool.and_eq_true, decide_eq_true_eq] at h
    obtain ⟨⟨⟨⟨h0, h1⟩, h2⟩, h3⟩, h4⟩ := h
    rw [printStmt]
    refine sepFrom_tok rfl (sepFrom_sp (sepFrom_tok rfl ?_))
    simp only [List.append_eq, List.append_assoc]
    apply head_glue (name_ident h0) h1 h2 h3
    refine sepFrom_sp (sepFrom_tok rfl (sepFrom_nl ?_))
    simp only [List.append_eq, List.append_assoc]
    exact stmts_glue nm body _ h4 (sepFrom_ind (sepFrom_tok rfl (sepFrom_nl hps)))
theorem stmts_glue (nm : Nat → String) : ∀ (ss : List Stmt) (n : Nat), okSs nm ss = true → ∀ {ps}, sepFrom none ps →
    sepFrom none (printStmts nm n ss ++ ps)
  | [], _, _, ps, hps => hps
  | s :: ss, n, h, ps, hps => by
    simp only [okSs, Bool.and_eq_true] at h
    rw [printStmts]
    refine sepFrom_ind ?_
    simp only [List.append_eq, List.append_assoc]
    exact stmt_glue nm s n h.1 (stmts_glue nm ss n h.2 hps)
end

end Verif.PStmt
