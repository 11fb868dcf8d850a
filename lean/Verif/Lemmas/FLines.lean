import Verif.Props.Fortran
import Verif.Lemmas.FProg

/-!
# The lines printed for Fortran
-/

namespace Verif.FLines
open Verif.CText Verif.Clast Verif.ClastGen Verif.PPrint Verif.PText Verif.PLex Verif.PExpr Verif.PGlue Verif.FText
open Verif.FReal Verif.FExpr Verif.PStmt Verif.PClast Verif.FProg Verif.Props.PText Verif.Props.Fortran

/-! ## Characters -/

/-- Characters that have no meaning for lines. -/
def okc (c : Char) : Bool := !(c == '\n') && !(c == '.') && !(c == '&')

theorem okc_word {c : Char} (h : wordChar c = true) : okc c = true := by
  have hn : ∀ x, wordChar x = false → (c == x) = false := by
    intro x hx
    simp only [beq_eq_false_iff_ne]
    rintro rfl
    rw [hx] at h
    cases h
  simp [okc, hn '\n' (by decide), hn '.' (by decide), hn '&' (by decide)]

theorem okc_ident {s : String} (h : ident s = true) : s.toList.all okc = true := by
  unfold ident at h
  split at h
  · cases h
  · rename_i c w hs
    rw [hs]
    simp only [Bool.and_eq_true, List.all_eq_true] at h
    simp only [List.all_cons, Bool.and_eq_true, List.all_eq_true]
    exact ⟨okc_word h.1.2, fun d hd => okc_word (h.2 d hd)⟩

mutual
theorem okc_idents : ∀ e, idents e = true → allE okc e = true
  | .name s, h => okc_ident (by simpa [idents] using h)
  | .cst _, _ => rfl
  | .term _ v, h => okc_idents v (by simpa [idents] using h)
  | .bin _ l _, h => okc_idents l (by simpa [idents] using h)
  | .red _ es, h => okc_identss es (by simpa [idents] using h)
theorem okc_identss : ∀ es, identss es = true → allE.allEs okc es = true
  | [], _ => rfl
  | e :: es, h => by
    simp only [identss, Bool.and_eq_true] at h
    rw [allE.allEs, okc_idents e h.1, okc_identss es h.2]
    rfl
end

theorem okc_expr {e : Expr} (h : idents e = true) : (exprC .fortran e).all okc = true := by
  refine all_expr (fun c hc => okc_word ?_) (by decide) .fortran e (okc_idents e h)
  have : c.isAlphanum = true := by simp [Char.isAlphanum, hc]
  simp [wordChar, this]

theorem unAnd_app : ∀ (a b : List Char), a.all okc = true → unAnd (a ++ b) = a ++ unAnd b
  | [], _, _ => rfl
  | c :: a, b, h => by
    simp only [List.all_cons, Bool.and_eq_true] at h
    have hc : c ≠ '.' := by
      rintro rfl
      exact absurd h.1 (by decide)
    rw [List.cons_append, List.cons_append, unAnd]
    · rw [unAnd_app a b h.2]
    · intro cs e _
      exact hc e

theorem unAnd_and (b : List Char) : unAnd (lit " .AND. " ++ b) = " && ".toList ++ unAnd b := by
  rw [lit_eq]
  rfl

theorem unAnd_ok {a : List Char} (h : a.all okc = true) : unAnd a = a := by
  have := unAnd_app a [] h
  simpa [unAnd] using this

theorem okc_mem {cs : List Char} (h : cs.all okc = true) : '\n' ∉ cs ∧ '&' ∉ cs := by
  rw [List.all_eq_true] at h
  exact ⟨fun hm => absurd (h _ hm) (by decide), fun hm => absurd (h _ hm) (by decide)⟩

/-! ## Lines -/

theorem split_line : ∀ (l cur rest : List Char), '\n' ∉ l → splitGo cur (l ++ '\n' :: rest) = (cur ++ l) :: splitGo [] rest
  | [], cur, rest, _ => by simp [splitGo]
  | c :: l, cur, rest, h => by
    simp only [List.mem_cons, not_or] at h
    rw [List.cons_append, splitGo, if_neg (Ne.symm h.1), split_line l _ rest h.2]
    simp

/-- The text is that of the lines, whatever follows. -/
def Reads (T : List Char) (ls : List (List Tok)) : Prop := ∀ rest, lines (T ++ rest) = (lines rest).map fun r => ls ++ r

theorem Reads.nil : Reads [] [] := fun rest => by simp

theorem Reads.app {a b : List Char} {l m : List (List Tok)} (h : Reads a l) (g : Reads b m) : Reads (a ++ b) (l ++ m) := by
  intro rest
  rw [List.append_assoc, h, g, Option.map_map]
  congr 1
  funext r
  simp

theorem Reads.line {cs : List Char} {ps : List Piece} (hn : '\n' ∉ cs) (ha : '&' ∉ cs) (hu : unAnd cs = text ps)
    (hs : sepFrom none ps) : Reads (cs ++ ['\n']) [tokens ps] := by
  intro rest
  have e : cs ++ ['\n'] ++ rest = cs ++ '\n' :: rest := by simp
  rw [e, lines, split_line cs [] rest hn, List.nil_append, lexLines, lexLine, if_neg ha, hu, lex_text ps none hs,
    Option.bind_some]
  rfl

theorem Reads.plain {cs : List Char} {ps : List Piece} (ho : cs.all okc = true) (ht : text ps = cs)
    (hs : sepFrom none ps) : Reads (cs ++ ['\n']) [tokens ps] :=
  Reads.line (okc_mem ho).1 (okc_mem ho).2 (by rw [unAnd_ok ho, ht]) hs

theorem Reads.whole {T : List Char} {ls : List (List Tok)} (h : Reads T ls) : lines T = some ls := by
  have := h []
  simpa [lines, splitGo, lexLines] using this

theorem ind_okc (n : Nat) : (indC n).all okc = true := by
  rw [List.all_eq_true]
  intro c hc
  rw [indC, List.mem_replicate] at hc
  rw [hc.2]
  decide

/-! ## Expressions -/

/-- A text with the value of an expression. -/
def Opd (e : Expr) (cs : List Char) (ps : List Piece) (t : CExpr) : Prop :=
  text ps = cs ∧ cs.all okc = true ∧ GP true ps ∧ IsExp (tokens ps) t ∧
    Vl t (fun p env => Small p env e) (fun env => e.eval env)

theorem opd {e : Expr} (h : fKit.E e = true) (g : Bool) : ∃ ps t, Opd e (parenC g (exprC .fortran e)) ps t := by
  simp only [fKit, Bool.and_eq_true, decide_eq_true_eq] at h
  obtain ⟨ps, h1, h2⟩ := paren_good (g := g) (shows_all e h.1)
  have hl : opLev g (lev e) ≤ 3 := by
    unfold opLev
    cases g
    · exact h.2
    · rw [if_pos rfl, if_pos h.2]
      omega
  obtain ⟨g1, t, g2, g3⟩ := h2.exp hl
  refine ⟨ps, t, h1, ?_, g1, g2, g3⟩
  have := okc_expr h.1
  unfold parenC
  cases g
  · exact this
  · simp [this, okc]

theorem opd' {e : Expr} (h : fKit.E e = true) : ∃ ps t, Opd e (exprC .fortran e) ps t := opd h false

theorem whole_rel {ts : List Tok} {t : CExpr} (h : IsExp ts t) {r : Tok} {o : BOp} (hr : relOf r = some o)
    (rest : List Tok) : Exp (ts ++ r :: rest) t (r :: rest) := by
  cases r <;> simp only [relOf, reduceCtorEq] at hr <;>
    exact h _ (by simp) (by simp) (by simp) _ _ (.stop (by simp) (by simp))

theorem whole_end {ts : List Tok} {t : CExpr} (h : IsExp ts t) : Exp ts t [] := by
  have := h.whole (rest := []) (Or.inl rfl)
  rwa [List.append_nil] at this

/-! ## Arguments -/

/-- The values of arguments. -/
def ArgsVal (es : List Expr) (ts : List CExpr) : Prop := ∀ p rnd env, Nearest p rnd →
  (∀ e ∈ es, Small p (cenv env) e) → intVals rnd env ts = some (es.map fun e => e.eval (cenv env))

theorem args_read : ∀ (e : Expr) (es : List Expr), (∀ x ∈ e :: es, fKit.E x = true) → ∃ ps ts,
    text ps = argsC .fortran ((e :: es).map fun x => (none, x)) ∧
    (argsC .fortran ((e :: es).map fun x => (none, x))).all okc = true ∧ GP true ps ∧
    (∀ r, Args (tokens ps ++ .rpar :: r) ts (.rpar :: r)) ∧ ArgsVal (e :: es) ts
  | e, [], h => by
    obtain ⟨ps, t, h1, h2, h3, h4, h5⟩ := opd (h e (by simp)) (safer e)
    refine ⟨ps, [t], ?_, ?_, h3, fun r => .one (h4.whole (Or.inr (Or.inl ⟨r, rfl⟩))) (by simp), ?_⟩
    · simpa [argsC, saferA, assC] using h1
    · simpa [argsC, saferA, assC] using h2
    · intro p rnd env hn hs
      simp [intVals, intVal, h5 p rnd env hn (hs e (by simp))]
  | e, e2 :: es, h => by
    obtain ⟨ps, t, h1, h2, h3, h4, h5⟩ := opd (h e (by simp)) (safer e)
    obtain ⟨qs, ts, g1, g2, g3, g4, g5⟩ := args_read e2 es (fun x hx => h x (List.mem_cons_of_mem _ hx))
    have ex : argsC .fortran ((e :: e2 :: es).map fun x => (none, x)) = parenC (safer e) (exprC .fortran e) ++
        ',' :: argsC .fortran ((e2 :: es).map fun x => (none, x)) := by
      simp [argsC, saferA, assC]
    refine ⟨ps ++ .tok .comma :: qs, t :: ts, ?_, ?_, ?_, ?_, ?_⟩
    · rw [ex, text_append, text_tok, h1, g1]
      rfl
    · rw [ex, List.all_append, h2, List.all_cons, g2]
      rfl
    · exact GP.op (t := .comma) h3 g3 rfl rfl (fun _ => by simp)
    · intro r
      rw [tokens_app, tokens_cons, List.append_assoc, List.cons_append]
      exact .cons (h4.whole (Or.inr (Or.inr ⟨_, rfl⟩))) (g4 r)
    · intro p rnd env hn hs
      rw [intVals, intVal, h5 p rnd env hn (hs e (by simp)),
        g5 p rnd env hn (fun x hx => hs x (List.mem_cons_of_mem _ hx))]
      rfl

/-! ## Conditions -/

/-- The token of a comparison. -/
def relTok (q : Eqn) : Tok := if q.sign = 0 then .eqeq else if 0 < q.sign then .ge else .le

/-- The comparison. -/
def relOp (q : Eqn) : BOp := if q.sign = 0 then .eq else if 0 < q.sign then .ge else .le

theorem relTok_op (q : Eqn) : relOf (relTok q) = some (relOp q) := by
  unfold relTok relOp
  split
  · rfl
  · split <;> rfl

/-- Under the condition that the operands are small, the condition has the value of the equations. -/
def CondVal (qs : List Eqn) (c : FCond) : Prop := ∀ p rnd env, Nearest p rnd →
  (∀ q ∈ qs, Small p (cenv env) q.lhs ∧ Small p (cenv env) q.rhs) →
  truth rnd env c = some (decide (∀ q ∈ qs, q.holds (cenv env)))

theorem rel_val (q : Eqn) (env : Env) :
    relVal (relOp q) (q.lhs.eval env) (q.rhs.eval env) = some (decide (q.holds env)) := by
  unfold relOp Eqn.holds
  by_cases h0 : q.sign = 0
  · simp [h0, relVal]
  · by_cases h1 : 0 < q.sign
    · simp [h0, h1, relVal]
    · simp [h0, h1, relVal]

theorem eqn_read {q : Eqn} (h : fKit.E q.lhs = true ∧ fKit.E q.rhs = true) : ∃ ps c,
    text ps = eqnC .fortran q ∧ (eqnC .fortran q).all okc = true ∧ GP true ps ∧
    (∀ r, LogPrim (tokens ps ++ .rpar :: r) c (.rpar :: r)) ∧ CondVal [q] c := by
  obtain ⟨ps, a, h1, h2, h3, h4, h5⟩ := opd' h.1
  obtain ⟨qs, b, g1, g2, g3, g4, g5⟩ := opd' h.2
  have hm : (if q.sign = 0 then lit " == " else if 0 < q.sign then lit " >= " else lit " <= ") =
      text [sp, .tok (relTok q), sp] := by
    unfold relTok
    split
    · rw [lit_eq]; rfl
    · split <;> rw [lit_eq] <;> rfl
  have ho : (if q.sign = 0 then lit " == " else if 0 < q.sign then lit " >= " else lit " <= ").all okc = true := by
    split
    · rw [lit_eq]; decide
    · split <;> rw [lit_eq] <;> decide
  refine ⟨ps ++ ([sp, .tok (relTok q), sp] ++ qs), .rel (relOp q) a b, ?_, ?_, ?_, ?_, ?_⟩
  · rw [text_append, text_append, ← hm, h1, g1]
    rfl
  · rw [eqnC, List.all_append, List.all_append, h2, ho, g2]
    rfl
  · intro prev rest hp hr
    rw [List.append_assoc]
    refine h3 prev _ hp (fun x hx => ?_)
    have ht : tokOK (relTok q) = true := by
      unfold relTok
      split
      · rfl
      · split <;> rfl
    refine sepFrom_sp (sepFrom_tok ht (sepFrom_sp ?_))
    show sepFrom none (qs ++ rest)
    exact g3 none rest (fun _ h => by cases h) hr
  · intro r
    have e : tokens (ps ++ ([sp, .tok (relTok q), sp] ++ qs)) ++ .rpar :: r =
        tokens ps ++ relTok q :: (tokens qs ++ .rpar :: r) := by
      rw [tokens_app, tokens_app]
      simp [sp, tokens]
    rw [e]
    exact .rel (whole_rel h4 (relTok_op q) _) (relTok_op q) (g4.whole (Or.inr (Or.inl ⟨r, rfl⟩)))
  · intro p rnd env hn hs
    have hq := hs q (by simp)
    rw [truth, intVal, intVal, h5 p rnd env hn hq.1, g5 p rnd env hn hq.2]
    simp only [Option.bind_some]
    rw [rel_val]
    simp

/-- Further equations, read behind a condition. -/
theorem eqns_read : ∀ qs : List Eqn, (∀ q ∈ qs, fKit.E q.lhs = true ∧ fKit.E q.rhs = true) → ∃ ps,
    (∀ b, unAnd (eqnsC .fortran qs ++ b) = text ps ++ unAnd b) ∧ '\n' ∉ eqnsC .fortran qs ∧ '&' ∉ eqnsC .fortran qs ∧
    (∀ rest a, post a = true → (∀ a, post a = true → sepFrom (some a) rest) → sepFrom (some a) (ps ++ rest)) ∧
    ∀ (pre : List Eqn) (c : FCond), CondVal pre c → ∃ d, (∀ r, LogRest c (tokens ps ++ .rpar :: r) d (.rpar :: r)) ∧
      CondVal (pre ++ qs) d
  | [], _ => by
    refine ⟨[], fun b => rfl, by simp [eqnsC], by simp [eqnsC], fun rest a ha h => h a ha, fun pre c hc => ?_⟩
    exact ⟨c, fun r => .stop (by simp [tokens]), by simpa using hc⟩
  | q :: qs, h => by
    obtain ⟨ps, c, h1, h2, h3, h4, h5⟩ := eqn_read (h q (by simp))
    obtain ⟨rs, g1, g2, g3, g4, g5⟩ := eqns_read qs (fun x hx => h x (List.mem_cons_of_mem _ hx))
    refine ⟨sp :: .tok .andand :: sp :: .tok .lpar :: (ps ++ .tok .rpar :: rs), ?_, ?_, ?_, ?_, ?_⟩
    · intro b
      rw [eqnsC, andC, List.append_assoc, unAnd_and, List.append_assoc, g1' (h := h2) (g := g1)]
      rw [text_cons, text_tok, text_cons, text_tok, text_append, text_tok, h1]
      simp [sp, Piece.chars, spell]
    · simp only [eqnsC, andC, List.mem_append, List.mem_cons, not_or, List.not_mem_nil]
      exact ⟨by rw [lit_eq]; decide, ⟨by decide, (okc_mem h2).1, by decide, not_false⟩, g2⟩
    · simp only [eqnsC, andC, List.mem_append, List.mem_cons, not_or, List.not_mem_nil]
      exact ⟨by rw [lit_eq]; decide, ⟨by decide, (okc_mem h2).2, by decide, not_false⟩, g3⟩
    · intro rest a ha hr
      refine sepFrom_sp (sepFrom_tok rfl (sepFrom_sp (sepFrom_tok rfl ?_)))
      show sepFrom (some .lpar) ((ps ++ .tok .rpar :: rs) ++ rest)
      rw [List.append_assoc]
      refine h3 _ _ (fun a ha => by cases ha; exact ⟨rfl, fun _ => by simp⟩) (fun a ha => ?_)
      exact sepFrom_after ha rfl (g4 rest .rpar rfl hr)
    · intro pr d hd
      have hv : CondVal (pr ++ [q]) (.and d c) := by
        intro p rnd env hn hs
        rw [truth, hd p rnd env hn (fun x hx => hs x (by simp [hx])),
          h5 p rnd env hn (fun x hx => hs x (by simp at hx; simp [hx]))]
        simp only [Option.bind_some, Option.map_some, Option.some.injEq]
        rw [← Bool.decide_and]
        congr 1
        simp only [List.mem_append, List.mem_singleton, forall_eq, eq_iff_iff]
        constructor
        · rintro ⟨a, b⟩ x (hx | rfl)
          · exact a x hx
          · exact b
        · exact fun a => ⟨fun x hx => a x (Or.inl hx), a q (Or.inr rfl)⟩
      obtain ⟨d', k1, k2⟩ := g5 _ _ hv
      refine ⟨d', fun r => ?_, by simpa using k2⟩
      have e : tokens (sp :: .tok .andand :: sp :: .tok .lpar :: (ps ++ .tok .rpar :: rs)) ++ .rpar :: r =
          .andand :: .lpar :: (tokens ps ++ .rpar :: (tokens rs ++ .rpar :: r)) := by
        have : tokens (sp :: .tok .andand :: sp :: .tok .lpar :: (ps ++ .tok .rpar :: rs)) =
            .andand :: .lpar :: tokens (ps ++ .tok .rpar :: rs) := rfl
        rw [this, tokens_app, tokens_cons]
        simp
      rw [e]
      exact .and (.paren (.mk (h4 _) (.stop (by simp)))) (k1 r)
where
  /-- Behind an equation in parentheses. -/
  g1' {q : Eqn} {qs : List Eqn} {rs : List Piece} {b : List Char} (h : (eqnC .fortran q).all okc = true)
      (g : ∀ b, unAnd (eqnsC .fortran qs ++ b) = text rs ++ unAnd b) :
      unAnd ('(' :: (eqnC .fortran q ++ [')']) ++ (eqnsC .fortran qs ++ b)) =
        '(' :: (eqnC .fortran q ++ [')']) ++ (text rs ++ unAnd b) := by
    rw [unAnd_app _ _ (by simp [h, okc]), g]

/-- A condition, read as the condition of `IF`. -/
theorem cond_read {q : Eqn} {qs : List Eqn} (h : ∀ x ∈ q :: qs, fKit.E x.lhs = true ∧ fKit.E x.rhs = true) : ∃ ps c,
    (∀ b, unAnd (condC .fortran (q :: qs) ++ b) = text (.tok .lpar :: (ps ++ [.tok .rpar])) ++ unAnd b) ∧
    '\n' ∉ condC .fortran (q :: qs) ∧ '&' ∉ condC .fortran (q :: qs) ∧
    (∀ rest, sepFrom none rest → sepFrom none (.tok .lpar :: (ps ++ .tok .rpar :: sp :: rest))) ∧
    (∀ r, Log (tokens ps ++ .rpar :: r) c (.rpar :: r)) ∧ CondVal (q :: qs) c := by
  obtain ⟨ps, c, h1, h2, h3, h4, h5⟩ := eqn_read (h q (by simp))
  have hl : ∀ a, some Tok.lpar = some a → pre a = true ∧ (true = true → a ≠ .minus) := fun a ha => by
    cases ha; exact ⟨rfl, fun _ => by simp⟩
  cases qs with
  | nil =>
    have e : condC .fortran [q] = '(' :: (eqnC .fortran q ++ [')']) := by simp [condC, parenC, eqnsC]
    refine ⟨ps, c, ?_, ?_, ?_, ?_, fun r => .mk (h4 r) (.stop (by simp)), h5⟩
    · intro b
      rw [e, unAnd_app _ _ (by simp [h2, okc]), text_tok, text_append, h1]
      rfl
    · simp [e, (okc_mem h2).1]
    · simp [e, (okc_mem h2).2]
    · intro rest hr
      refine sepFrom_tok rfl (h3 _ _ hl (fun a ha => sepFrom_after ha rfl (sepFrom_sp hr)))
  | cons q2 qs =>
    obtain ⟨rs, g1, g2, g3, g4, g5⟩ := eqns_read (q2 :: qs) (fun x hx => h x (List.mem_cons_of_mem _ hx))
    obtain ⟨d, k1, k2⟩ := g5 _ _ h5
    have e : condC .fortran (q :: q2 :: qs) = '(' :: ('(' :: (eqnC .fortran q ++ [')']) ++
        (eqnsC .fortran (q2 :: qs) ++ [')'])) := by
      simp [condC, parenC]
    refine ⟨.tok .lpar :: (ps ++ .tok .rpar :: rs), d, ?_, ?_, ?_, ?_, ?_, k2⟩
    · intro b
      have e2 : condC .fortran (q :: q2 :: qs) ++ b = ('(' :: '(' :: (eqnC .fortran q ++ [')'])) ++
          (eqnsC .fortran (q2 :: qs) ++ (')' :: b)) := by
        rw [e]
        simp
      have e3 : unAnd (')' :: b) = ')' :: unAnd b := unAnd_app [')'] b (by decide)
      rw [e2, unAnd_app _ _ (by simp [h2, okc]), g1, e3]
      simp only [text_tok, List.cons_append, text_append, h1]
      simp [spell, show text [] = [] from rfl]
    · simp [e, (okc_mem h2).1, g2]
    · simp [e, (okc_mem h2).2, g3]
    · intro rest hr
      refine sepFrom_tok rfl ⟨rfl, fun a ha => by cases ha; decide, ?_⟩
      show sepFrom (some .lpar) ((ps ++ .tok .rpar :: rs) ++ .tok .rpar :: sp :: rest)
      rw [List.append_assoc]
      refine h3 _ _ hl (fun a ha => sepFrom_after ha rfl ?_)
      exact g4 _ .rpar rfl (fun a ha => sepFrom_after ha rfl (sepFrom_sp hr))
    · intro r
      have e : tokens (.tok .lpar :: (ps ++ .tok .rpar :: rs)) ++ .rpar :: r =
          .lpar :: (tokens ps ++ .rpar :: (tokens rs ++ .rpar :: r)) := by
        rw [tokens_cons, tokens_app, tokens_cons]
        simp
      rw [e]
      exact .mk (.paren (.mk (h4 _) (.stop (by simp)))) (k1 r)

/-! ## Statements -/

mutual
/-- The statement read is that of the clast. -/
inductive TrS (nm : Nat → String) : Stmt → FStmt → Prop
  | ass {x e t} : Vl t (fun p env => Small p env e) (fun env => e.eval env) → TrS nm (.ass x e) (.asg x t)
  | user {k es ts} : ArgsVal es ts → TrS nm (.user k es) (.call (nm k) ts)
  | guard {qs c b p} : CondVal qs c → Tr nm b p → TrS nm (.guard qs b) (.ite c p)
  | for_ {it lb ub t u b p} : Vl t (fun p env => Small p env lb) (fun env => lb.eval env) →
      Vl u (fun p env => Small p env ub) (fun env => ub.eval env) → Tr nm b p →
      TrS nm (.for_ it (some lb) (some ub) 1 b) (.loop it t u none p)
/-- The same for lists. -/
inductive Tr (nm : Nat → String) : List Stmt → List FStmt → Prop
  | nil : Tr nm [] []
  | cons {s s' ss p} : TrS nm s s' → Tr nm ss p → Tr nm (s :: ss) (s' :: p)
end

mutual
/-- Statements that Fortran has: no blocks, strides of one, both bounds; names of statements are not `if`. -/
def plain (nm : Nat → String) : Stmt → Bool
  | .ass _ _ => true
  | .user k _ => decide (fold (nm k) ≠ "if")
  | .block _ => false
  | .guard _ b => plains nm b
  | .for_ _ lb ub s b => lb.isSome && ub.isSome && decide (s = 1) && plains nm b
/-- The same for lists. -/
def plains (nm : Nat → String) : List Stmt → Bool
  | [] => true
  | s :: ss => plain nm s && plains nm ss
end

/-- The lines can be read as the statement, whatever follows. -/
def Reads1 (T : List Char) (s : FStmt) : Prop :=
  ∃ ls, Reads T ls ∧ ∀ r q r', FProg.Parse r q r' → FProg.Parse (ls ++ r) (s :: q) r'

/-- The lines can be read as the statements, whatever follows. -/
def ReadsL (T : List Char) (p : List FStmt) : Prop :=
  ∃ ls, Reads T ls ∧ ∀ r q r', FProg.Parse r q r' → FProg.Parse (ls ++ r) (p ++ q) r'

theorem text_ind (n : Nat) (ps : List Piece) : text (ind n :: ps) = indC n ++ text ps := rfl

theorem asg_read (n : Nat) {x : String} (hx : ident x = true) {e : Expr} (h : fKit.E e = true) :
    ∃ t, Reads1 (indC n ++ (assC .fortran (some x, e) ++ endC .fortran)) (.asg x t) ∧
      Vl t (fun p env => Small p env e) (fun env => e.eval env) := by
  obtain ⟨ps, t, h1, h2, h3, h4, h5⟩ := opd' h
  refine ⟨t, ⟨[.id x :: .asg :: tokens ps], ?_, fun r q r' hp => .asg (whole_end h4) hp⟩, h5⟩
  have e : indC n ++ (assC .fortran (some x, e) ++ endC .fortran) =
      (indC n ++ (x.toList ++ (lit " = " ++ exprC .fortran e))) ++ ['\n'] := by
    simp [assC, endC]
  rw [e]
  refine Reads.plain (ps := ind n :: .tok (.id x) :: sp :: .tok .asg :: sp :: ps) ?_ ?_ ?_
  · rw [List.all_append, List.all_append, List.all_append, ind_okc, okc_ident hx, h2, lit_eq]
    decide
  · rw [text_ind, text_tok, text_cons, text_tok, text_cons, h1, lit_eq]
    rfl
  · exact sepFrom_ind (sepFrom_tok hx (sepFrom_sp (sepFrom_tok rfl (sepFrom_sp h3.whole))))

theorem callName_eq (f : Cfg) (k : Nat) : callName f k = (nmOf f k).toList := by
  unfold nmOf callName
  split
  · simp
  · cases f.name k <;> simp

theorem call_read {f : Cfg} (hl : f.lang = .fortran) (n k : Nat) (hn : ident (nmOf f k) = true)
    (hf : fold (nmOf f k) ≠ "if") {es : List Expr} (h : ∀ e ∈ es, fKit.E e = true) :
    ∃ ts, Reads1 (indC n ++ callC f k (es.map fun e => (none, e))) (.call (nmOf f k) ts) ∧ ArgsVal es ts := by
  have e : indC n ++ callC f k (es.map fun e => (none, e)) = (indC n ++ ((nmOf f k).toList ++
      ('(' :: (argsC .fortran (es.map fun e => (none, e)) ++ [')'])))) ++ ['\n'] := by
    rw [callC, callName_eq, hl]
    simp [endC]
  rw [e]
  cases es with
  | nil =>
    refine ⟨[], ⟨[[.id (nmOf f k), .lpar, .rpar]], ?_, fun r q r' hp => .call (.none hf) hp⟩, fun _ _ _ _ _ => rfl⟩
    refine Reads.plain (ps := [ind n, .tok (.id (nmOf f k)), .tok .lpar, .tok .rpar]) ?_ ?_ ?_
    · rw [List.all_append, List.all_append, ind_okc, okc_ident hn]
      decide
    · rw [text_ind, text_tok]
      rfl
    · exact sepFrom_ind (sepFrom_tok hn (sepFrom_word rfl rfl ⟨rfl, fun a ha => by cases ha; decide, trivial⟩))
  | cons x es =>
    obtain ⟨ps, ts, h1, h2, h3, h4, h5⟩ := args_read x es h
    refine ⟨ts, ⟨[.id (nmOf f k) :: .lpar :: (tokens ps ++ [.rpar])], ?_,
      fun r q r' hp => .call (.args hf (h4 [])) hp⟩, h5⟩
    have := Reads.plain (cs := indC n ++ ((nmOf f k).toList ++
      ('(' :: (argsC .fortran ((x :: es).map fun e => (none, e)) ++ [')']))))
      (ps := ind n :: .tok (.id (nmOf f k)) :: .tok .lpar :: (ps ++ [.tok .rpar])) ?_ ?_ ?_
    · have e2 : tokens (ind n :: .tok (.id (nmOf f k)) :: .tok .lpar :: (ps ++ [.tok .rpar])) =
          .id (nmOf f k) :: .lpar :: tokens (ps ++ [.tok .rpar]) := rfl
      rwa [e2, tokens_app] at this
    · rw [List.all_append, List.all_append, ind_okc, okc_ident hn, List.all_cons, List.all_append, h2]
      decide
    · rw [text_ind, text_tok, text_tok, text_append, h1]
      rfl
    · refine sepFrom_ind (sepFrom_tok hn (sepFrom_word rfl rfl ?_))
      refine h3 _ _ (fun a ha => by cases ha; exact ⟨rfl, fun _ => by simp⟩) (fun a ha => sepFrom_after ha rfl trivial)

theorem end_read (n : Nat) (a b : String) (ha : ident a = true) (hb : ident b = true) :
    Reads (indC n ++ (a.toList ++ (' ' :: (b.toList ++ ['\n'])))) [[.id a, .id b]] := by
  have e : indC n ++ (a.toList ++ (' ' :: (b.toList ++ ['\n']))) = (indC n ++ (a.toList ++ (' ' :: b.toList))) ++ ['\n'] := by
    simp
  rw [e]
  refine Reads.plain (ps := [ind n, .tok (.id a), sp, .tok (.id b)]) ?_ ?_ ?_
  · rw [List.all_append, List.all_append, List.all_cons, ind_okc, okc_ident ha, okc_ident hb]
    decide
  · rw [text_ind, text_tok, text_cons, text_tok]
    simp [spell, sp, Piece.chars, show text [] = [] from rfl]
  · exact sepFrom_ind (sepFrom_tok ha (sepFrom_sp (sepFrom_tok hb trivial)))

theorem do_read (n : Nat) {it : String} (hi : ident it = true) {lb ub : Expr} (hlb : fKit.E lb = true)
    (hub : fKit.E ub = true) {T : List Char} {b : List FStmt} (hb : ReadsL T b) :
    ∃ t u, Reads1 (indC n ++ (headC .fortran it (some lb) (some ub) 1 {} ++ (T ++ (indC n ++ afterC .fortran {}))))
      (.loop it t u none b) ∧
      Vl t (fun p env => Small p env lb) (fun env => lb.eval env) ∧
      Vl u (fun p env => Small p env ub) (fun env => ub.eval env) := by
  obtain ⟨ps, t, h1, h2, h3, h4, h5⟩ := opd' hlb
  obtain ⟨qs, u, g1, g2, g3, g4, g5⟩ := opd' hub
  obtain ⟨ls, hr, hp⟩ := hb
  refine ⟨t, u, ?_, h5, g5⟩
  have e : indC n ++ (headC .fortran it (some lb) (some ub) 1 {} ++ (T ++ (indC n ++ afterC .fortran {}))) =
      ((indC n ++ ("DO".toList ++ (' ' :: (it.toList ++ ('=' :: (exprC .fortran lb ++ (", ".toList ++ exprC .fortran ub))))))) ++
        ['\n']) ++ (T ++ (indC n ++ ("END".toList ++ (' ' :: ("DO".toList ++ ['\n']))))) := by
    simp [headC, forC, initC, boundC, testC, stepC, afterC, lit_eq]
  rw [e]
  have hend := end_read n "END" "DO" (by decide +kernel) (by decide +kernel)
  have hdo : Reads ((indC n ++ ("DO".toList ++ (' ' :: (it.toList ++ ('=' :: (exprC .fortran lb ++ (", ".toList ++
      exprC .fortran ub))))))) ++ ['\n']) [.id "DO" :: .id it :: .asg :: (tokens ps ++ .comma :: tokens qs)] := by
    have := Reads.plain (cs := indC n ++ ("DO".toList ++ (' ' :: (it.toList ++ ('=' :: (exprC .fortran lb ++ (", ".toList ++
      exprC .fortran ub)))))))
      (ps := ind n :: .tok (.id "DO") :: sp :: .tok (.id it) :: .tok .asg :: (ps ++ .tok .comma :: .ws [' '] :: qs)) ?_ ?_ ?_
    · have e2 : tokens (ind n :: .tok (.id "DO") :: sp :: .tok (.id it) :: .tok .asg :: (ps ++ .tok .comma :: .ws [' '] :: qs)) =
          .id "DO" :: .id it :: .asg :: tokens (ps ++ .tok .comma :: .ws [' '] :: qs) := rfl
      rw [e2, tokens_app] at this
      exact this
    · simp only [List.all_append, List.all_cons, ind_okc, okc_ident hi, h2, g2]
      decide
    · rw [text_ind, text_tok, text_cons, text_tok, text_tok, text_append, text_tok, text_cons, h1, g1]
      rfl
    · refine sepFrom_ind (sepFrom_tok (by decide +kernel) (sepFrom_sp (sepFrom_tok hi (sepFrom_word rfl rfl ?_))))
      have := (GP.comma_space h3 g3) (some .asg) [] (fun a ha => by cases ha; exact ⟨rfl, fun _ => by simp⟩)
        (fun _ _ => trivial)
      rwa [List.append_nil] at this
  refine ⟨_, hdo.app (hr.app hend), ?_⟩
  intro r q r' hq
  have hbody := hp ([.id "END", .id "DO"] :: r) [] ([.id "END", .id "DO"] :: r)
    (.stop (fun l hl => by cases hl; decide +kernel))
  rw [List.append_nil] at hbody
  have : FProg.Parse ((.id "DO" :: .id it :: .asg :: (tokens ps ++ .comma :: tokens qs)) ::
      (ls ++ [.id "END", .id "DO"] :: r)) (.loop it t u none b :: q) r' :=
    .loop (.unit (by decide +kernel) (h4.whole (Or.inr (Or.inr ⟨_, rfl⟩))) (whole_end g4)) hbody (by decide +kernel) hq
  simpa using this

theorem if_read (n : Nat) {q : Eqn} {qs : List Eqn} (h : ∀ x ∈ q :: qs, fKit.E x.lhs = true ∧ fKit.E x.rhs = true)
    {T : List Char} {b : List FStmt} (hb : ReadsL T b) :
    ∃ c, Reads1 (indC n ++ ((ifC .fortran).1 ++ (condC .fortran (q :: qs) ++ ((ifC .fortran).2.1 ++ (T ++ (indC n ++
      (ifC .fortran).2.2)))))) (.ite c b) ∧ CondVal (q :: qs) c := by
  obtain ⟨ps, c, h1, h2, h3, h4, h5, h6⟩ := cond_read h
  obtain ⟨ls, hr, hp⟩ := hb
  refine ⟨c, ?_, h6⟩
  have e : indC n ++ ((ifC .fortran).1 ++ (condC .fortran (q :: qs) ++ ((ifC .fortran).2.1 ++ (T ++ (indC n ++
      (ifC .fortran).2.2))))) =
      ((indC n ++ "IF ".toList) ++ (condC .fortran (q :: qs) ++ " THEN".toList) ++ ['\n']) ++
        (T ++ (indC n ++ ("END".toList ++ (' ' :: ("IF".toList ++ ['\n']))))) := by
    simp [ifC, lit_eq]
  rw [e]
  have hend := end_read n "END" "IF" (by decide +kernel) (by decide +kernel)
  have hif : Reads ((indC n ++ "IF ".toList) ++ (condC .fortran (q :: qs) ++ " THEN".toList) ++ ['\n'])
      [.id "IF" :: .lpar :: (tokens ps ++ [.rpar, .id "THEN"])] := by
    have := Reads.line (cs := (indC n ++ "IF ".toList) ++ (condC .fortran (q :: qs) ++ " THEN".toList))
      (ps := ind n :: .tok (.id "IF") :: sp :: .tok .lpar :: (ps ++ .tok .rpar :: sp :: [.tok (.id "THEN")])) ?_ ?_ ?_ ?_
    · have e2 : tokens (ind n :: .tok (.id "IF") :: sp :: .tok .lpar :: (ps ++ .tok .rpar :: sp :: [.tok (.id "THEN")])) =
          .id "IF" :: .lpar :: tokens (ps ++ .tok .rpar :: sp :: [.tok (.id "THEN")]) := rfl
      rw [e2, tokens_app] at this
      exact this
    · simp only [List.mem_append, not_or]
      exact ⟨⟨(okc_mem (ind_okc n)).1, by decide⟩, h2, by decide⟩
    · simp only [List.mem_append, not_or]
      exact ⟨⟨(okc_mem (ind_okc n)).2, by decide⟩, h3, by decide⟩
    · rw [unAnd_app _ _ (by rw [List.all_append, ind_okc]; decide), h1, unAnd_ok (by decide)]
      simp [text_ind, text_append, text_cons, spell, sp, Piece.chars, show text [] = [] from rfl]
      rfl
    · exact sepFrom_ind (sepFrom_tok (by decide +kernel) (sepFrom_sp (h4 _ (sepFrom_tok (by decide +kernel) trivial))))
  refine ⟨_, hif.app (hr.app hend), ?_⟩
  intro r p r' hq
  have hbody := hp ([.id "END", .id "IF"] :: r) [] ([.id "END", .id "IF"] :: r)
    (.stop (fun l hl => by cases hl; decide +kernel))
  rw [List.append_nil] at hbody
  have : FProg.Parse ((.id "IF" :: .lpar :: (tokens ps ++ [.rpar, .id "THEN"])) ::
      (ls ++ [.id "END", .id "IF"] :: r)) (.ite c b :: p) r' :=
    .ite (.mk (by decide +kernel) (by decide +kernel) (h5 [.id "THEN"])) hbody (by decide +kernel) hq
  simpa using this

mutual
/-- A printed statement can be read. -/
theorem stmt_read {f : Cfg} (hl : f.lang = .fortran) (hb : f.callable = true ∨ ∀ k, f.body k = none) :
    ∀ (s : Stmt) (n : Nat) (last : Bool), fKit.S (nmOf f) s = true → plain (nmOf f) s = true →
    ∃ T s', stmtC f n last (emb s) = some T ∧ Reads1 T s' ∧ TrS (nmOf f) s s'
  | .ass x e, n, last, hk, hp => by
    simp only [Kit.S, Bool.and_eq_true] at hk
    obtain ⟨t, h1, h2⟩ := asg_read n (name_ident hk.1) hk.2
    refine ⟨_, _, ?_, h1, .ass h2⟩
    rw [emb, stmtC, hl]
  | .user k es, n, last, hk, hp => by
    simp only [Kit.S, Bool.and_eq_true, List.all_eq_true] at hk
    simp only [plain, decide_eq_true_eq] at hp
    obtain ⟨ts, h1, h2⟩ := call_read hl n k (name_ident hk.1) hp hk.2
    refine ⟨_, _, ?_, h1, .user h2⟩
    rw [emb, stmtC, userC]
    rcases hb with hb | hb
    · rw [if_pos hb, Option.map_some]
    · rw [hb k]
      simp
  | .block b, _, _, _, hp => by simp [plain] at hp
  | .guard [] b, _, _, hk, _ => by simp [Kit.S] at hk
  | .guard (q :: qs) b, n, last, hk, hp => by
    simp only [Kit.S, Bool.and_eq_true, List.all_eq_true] at hk
    obtain ⟨T, p, h1, h2, h3⟩ := stmts_read hl hb b (n + indentStep) hk.2 (by simpa [plain] using hp)
    obtain ⟨c, g1, g2⟩ := if_read n hk.1.2 h2
    refine ⟨_, _, ?_, g1, .guard g2 h3⟩
    rw [emb, stmtC, hl, h1, Option.map_some]
  | .for_ it none _ _ _, _, _, _, hp => by simp [plain] at hp
  | .for_ it (some _) none _ _, _, _, _, hp => by simp [plain] at hp
  | .for_ it (some lb) (some ub) s b, n, last, hk, hp => by
    simp only [Kit.S, Kit.O, Bool.and_eq_true] at hk
    simp only [plain, Option.isSome_some, Bool.true_and, Bool.and_eq_true, decide_eq_true_eq] at hp
    obtain ⟨rfl, hp⟩ := hp
    obtain ⟨T, p, h1, h2, h3⟩ := stmts_read hl hb b (n + indentStep) hk.2 hp
    obtain ⟨t, u, g1, g2, g3⟩ := do_read n (name_ident hk.1.1.1.1) hk.1.1.1.2 hk.1.1.2 h2
    refine ⟨_, _, ?_, g1, .for_ g2 g3 h3⟩
    rw [emb, stmtC, hl, h1, Option.map_some]
    simp
/-- Printed statements can be read. -/
theorem stmts_read {f : Cfg} (hl : f.lang = .fortran) (hb : f.callable = true ∨ ∀ k, f.body k = none) :
    ∀ (ss : List Stmt) (n : Nat), fKit.Ss (nmOf f) ss = true → plains (nmOf f) ss = true →
    ∃ T p, stmtsC f n (embs ss) = some T ∧ ReadsL T p ∧ Tr (nmOf f) ss p
  | [], n, _, _ => ⟨[], [], rfl, ⟨[], Reads.nil, fun _ _ _ h => h⟩, .nil⟩
  | s :: ss, n, hk, hp => by
    simp only [Kit.Ss, Bool.and_eq_true] at hk
    simp only [plains, Bool.and_eq_true] at hp
    obtain ⟨T, s', h1, ⟨ls, h2, h2'⟩, h3⟩ := stmt_read hl hb s n (embs ss).isEmpty hk.1 hp.1
    obtain ⟨U, p, g1, ⟨ms, g2, g2'⟩, g3⟩ := stmts_read hl hb ss n hk.2 hp.2
    refine ⟨T ++ U, s' :: p, ?_, ⟨ls ++ ms, h2.app g2, fun r q r' h => ?_⟩, .cons h3 g3⟩
    · rw [embs, stmtsC, h1, g1]
      rfl
    · rw [List.append_assoc, List.cons_append]
      exact h2' _ _ _ (g2' _ _ _ h)
end

end Verif.FLines
