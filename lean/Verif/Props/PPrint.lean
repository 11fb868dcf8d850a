import Verif.Lemmas.PClast
import Verif.Props.ClastExec

/-!
# C35, C36: the printed text
-/

namespace Verif.Props.PPrint
open Verif.CText Verif.CParse Verif.Clast Verif.ClastGen Verif.PPrint Verif.PLex Verif.PExpr Verif.PGlue
open Verif.PStmt Verif.PClast Verif.Props.ClastExec

/-! ## C35: expressions -/

/-- The characters printed for an expression. -/
def exprText (e : Expr) : List Char := text (toks (printExpr e))

/-- The characters are an expression of C, in exactly one way, and it has the value `f`. -/
def Denotes (cs : List Char) (f : Env → Int) : Prop :=
  ∃ ts c, lex cs = some ts ∧ Parse 6 ts c ∧ (∀ c', Parse 6 ts c' → c' = c) ∧ ∀ env, CExpr.eval env c = f env

/-- The text of an expression, cut into tokens by longest match and read with C's precedences, has the
value of the expression in all environments; and there is no other way of reading it.  `okE` describes the
expressions for which this holds; that all those made by code generation are among them is
`C35_program`. -/
theorem C35_expression (e : Expr) (h : okE e = true) : Denotes (exprText e) (fun env => e.eval env) := by
  obtain ⟨c, hc, hv⟩ := expr_parse h
  refine ⟨printExpr e, c, ?_, hc, fun c' hc' => parse_unique hc' hc, hv⟩
  have hg := okE_glue h
  have hs : sepFrom none (toks (printExpr e) ++ []) :=
    G.toks hg (fun a ha => by cases ha) (fun a _ => trivial)
  rw [List.append_nil] at hs
  have := lex_text _ none hs
  rwa [tokens_toks] at this

/-- A text denotes one value. -/
theorem denotes_unique {cs : List Char} {f g : Env → Int} (h : Denotes cs f) (h' : Denotes cs g) : f = g := by
  obtain ⟨ts, c, h1, h2, _, h4⟩ := h
  obtain ⟨ts', c', h1', h2', _, h4'⟩ := h'
  rw [h1] at h1'
  cases h1'
  obtain rfl := parse_unique h2 h2'
  funext env
  rw [← h4, h4']

/-- `2*(i%3)` cannot be told from `(2*i)%3`: no parentheses are printed around the operand of a
coefficient unless it is a reduction.  Code generation never builds such a term. -/
theorem C35_wrong_mod : ∃ e : Expr, ¬ Denotes (exprText e) (fun env => e.eval env) := by
  refine ⟨.term 2 (.bin .mod (.name "i") 3), fun h => ?_⟩
  have h' := C35_expression (.bin .mod (.term 2 (.name "i")) 3) (by decide)
  have he : exprText (.term 2 (.bin .mod (.name "i") 3)) = exprText (.bin .mod (.term 2 (.name "i")) 3) := by decide
  rw [he] at h
  have := congrFun (denotes_unique h h') (fun _ => 2)
  revert this
  decide

/-- A negative coefficient over a negative term is printed as a decrement. -/
theorem C35_wrong_decr : ∃ e : Expr, ¬ Denotes (exprText e) (fun env => e.eval env) := by
  refine ⟨.term (-1) (.term (-3) (.name "i")), fun h => ?_⟩
  obtain ⟨ts, c, h1, h2, _⟩ := h
  have : lex (exprText (.term (-1) (.term (-3) (.name "i")))) = some [.decr, .num 3, .star, .id "i"] := by decide
  rw [this] at h1
  cases h1
  obtain ⟨t, q, hp, ht, _⟩ := parse_head h2
  simp only [List.cons.injEq] at hp
  rw [← hp.1] at ht
  simp at ht

/-- A term of coefficient 0 that is not the first of a sum gets no sign. -/
theorem C35_wrong_zero : ∃ e : Expr, exprText e = exprText (.name "i0") ++ ['*', 'j'] ∧ ∀ env, e.eval env = env "i" :=
  ⟨.red .sum [.name "i", .term 0 (.name "j")], by decide, fun env => by simp [Expr.eval, evalList, RedType.eval]⟩

/-- An expression with most constructs. -/
def exE : Expr := .red .max [.bin .cdiv (.red .sum [.term (-2) (.name "i"), .term 1 (.name "N"), .cst (-3)]) 4,
    .cst 0, .term (-1) (.bin .fdiv (.red .sum [.term 3 (.name "j")]) 2)]

example : exprText exE = "max(max(ceild(-2*i+N-3,4),0),-floord(3*j,2))".toList := by decide

example : Denotes (exprText exE) (fun env => exE.eval env) := C35_expression exE (by decide)

/-! ## C35: programs -/

/-- The characters are a list of statements of C, in exactly one way. -/
def Program (cs : List Char) (p : List CStmt) : Prop :=
  ∃ ts, lex cs = some ts ∧ ParseStmts ts p ∧ ∀ p', ParseStmts ts p' → p' = p

/-- A printable statement list is printed as a C program with the same executions. -/
theorem C35_statements (nm : Nat → String) (n : Nat) (ss : List Stmt) (h : okSs nm ss = true) :
    ∃ p, Program (text (printStmts nm n ss)) p ∧ ∀ env tr env', Exec ss env tr env' →
      Run p env (tr.map (ev nm)) env' ∧ ∀ tr' e', Run p env tr' e' → tr' = tr.map (ev nm) ∧ e' = env' := by
  obtain ⟨p, hp, ht⟩ := stmts_parse nm ss n h
  refine ⟨p, ⟨_, ?_, hp, fun p' hp' => stmts_unique hp' hp⟩, ?_⟩
  · have hs := stmts_glue nm ss n h (ps := []) trivial
    rw [List.append_nil] at hs
    exact lex_text _ none hs
  · intro env tr env' hx
    have hr := exec_run hx ht
    exact ⟨hr, fun tr' e' hr' => run_det hr' hr⟩

/-- The text printed for the clast of any loop tree is a C program, can be read in one way only, and
executes what the clast executes.  Assumed: names are identifiers, strides are positive, the definitions of
existentials are not `floor(0/d)`, and the bounds isl gives for strided loops are printable. -/
theorem C35_program (nm : Nat → String) (hnm : ∀ k, name (nm k) = true) (cx : Ctx) (hc : CtxPrint cx)
    (icmp : Int → Int → Int) (loops : List Loop) (hl : loopsOK loops = true) (ss : List Stmt)
    (h : clastCreate cx icmp loops = some ss) (n : Nat) :
    ∃ p, Program (text (printStmts nm n ss)) p ∧ ∀ env tr env', Exec ss env tr env' →
      Run p env (tr.map (ev nm)) env' ∧ ∀ tr' e', Run p env tr' e' → tr' = tr.map (ev nm) ∧ e' = env' :=
  C35_statements nm n ss (clast_ok hnm hc hl h)

/-- The printed text of a loop tree executes the statement instances of the tree, in order: C25 and C35
together. -/
theorem C35_tree_text_partial (nm : Nat → String) (hnm : ∀ k, name (nm k) = true) (cx : Ctx) (hc : CtxPrint cx)
    (hn : NamesOK cx.nm)
    (icmp : Int → Int → Int) (p x : Nat → Int) (loops : List Loop) (hl : loopsOK loops = true) (tr : List Event)
    (hW : WfLoops cx p 0 (fun _ => false) [] (fun _ => none) (fun _ => True) loops)
    (hrun : TreeRun cx.nm p 0 loops x tr) (ss : List Stmt)
    (h : clastCreate cx icmp loops = some ss) (n : Nat) (env : Env)
    (henv : ∀ k, k < cx.nm.nPar → env (cx.nm.param k) = p k) :
    ∃ prog, Program (text (printStmts nm n ss)) prog ∧ (∃ env', Run prog env (tr.map (ev nm)) env') ∧
      ∀ tr' env', Run prog env tr' env' → tr' = tr.map (ev nm) := by
  obtain ⟨prog, h1, h2⟩ := C35_program nm hnm cx hc icmp loops hl ss h n
  obtain ⟨⟨env', hx⟩, _⟩ := C25_program_executes_tree_partial cx hc.sort hc.gsort hn icmp p x loops tr hW hrun
    ss h env henv
  exact ⟨prog, h1, ⟨env', (h2 _ _ _ hx).1⟩, fun tr' e' hr => ((h2 _ _ _ hx).2 tr' e' hr).1⟩

/-- Statement names `S0`, `S00`, ... for the examples. -/
def exStmt : Nat → String := fun k => String.ofList ('S' :: List.replicate (k + 1) '0')

theorem exStmt_ok (k : Nat) : name (exStmt k) = true := by
  have h1 : (exStmt k).toList = 'S' :: List.replicate (k + 1) '0' := by simp [exStmt]
  have h2 : keyword (exStmt k) = false := by
    have hne : ∀ w : String, w.toList.head? ≠ some 'S' → exStmt k ≠ w := by
      rintro w hw rfl
      rw [h1] at hw
      simp at hw
    simp only [keyword, hne "if" (by decide), hne "for" (by decide), decide_false, Bool.or_self]
  have h3 : (List.replicate (k + 1) '0').all wordChar = true := by
    rw [List.all_eq_true]
    intro c hc
    rw [List.eq_of_mem_replicate hc]
    decide
  have h4 : ident (exStmt k) = true := by
    unfold ident
    rw [h1]
    simp only [h3, Bool.and_true]
    decide
  simp only [name, h4, h2, Bool.not_false, Bool.and_self]

theorem exN_print : NamesPrint exN where
  at_ := by
    intro k
    have h1 : (exN.at_ k).toList = List.replicate (k + 1) 'i' := by simp [exN]
    have h2 : keyword (exN.at_ k) = false := by
      have e1 : exN.at_ k ≠ "if" := by
        intro h
        have := congrArg String.toList h
        rw [h1] at this
        have hm : 'f' ∈ List.replicate (k + 1) 'i' := by rw [this]; decide
        have := List.eq_of_mem_replicate hm
        revert this
        decide
      have e2 : exN.at_ k ≠ "for" := by
        intro h
        have := congrArg String.toList h
        rw [h1] at this
        have hm : 'f' ∈ List.replicate (k + 1) 'i' := by rw [this]; decide
        have := List.eq_of_mem_replicate hm
        revert this
        decide
      simp only [keyword, e1, e2, decide_false, Bool.or_self]
    have h3 : (List.replicate k 'i').all wordChar = true := by
      rw [List.all_eq_true]
      intro c hc
      rw [List.eq_of_mem_replicate hc]
      decide
    have h4 : ident (exN.at_ k) = true := by
      unfold ident
      rw [h1, List.replicate_succ]
      simp only [h3, Bool.and_true]
      decide
    simp only [name, h4, h2, Bool.not_false, Bool.and_self]
  param := fun _ => (by decide : name "N" = true)

theorem exC_print : CtxPrint exC := ⟨exN_print, fun l => List.Perm.refl l, fun l => List.Perm.refl l,
  fun d e hden h => by
    have hf : exC.floorAff d = Verif.Props.Guards.plainFloor d := rfl
    rw [hf] at h
    unfold Verif.Props.Guards.plainFloor at h
    dsimp only at h
    split at h
    · cases h
    · rename_i hn
      simp only [Option.some.injEq] at h
      subst h
      simp only [someD, Bool.or_eq_true, Bool.and_eq_true, List.any_map]
      refine ⟨Or.inl ?_, rfl⟩
      rw [List.any_eq_true]
      simp only [List.all_eq_true, beq_iff_eq, not_forall] at hn
      obtain ⟨c, hc, hz⟩ := hn
      exact ⟨c, hc, by simpa using hz⟩⟩

-- The tree of C25's example: its text, and that the assumptions hold.
example (ss : List Stmt) (h : clastCreate exC gmpCmp exTree = some ss) :
    text (printStmts exStmt 0 ss) = ("for (i=0;i<=N;i++) {\n  if (i <= floord(N-1,2)) {\n" ++
      "    S00000000(i,(i+1));\n  }\n}\n").toList := by
  have : clastCreate exC gmpCmp exTree = some [.for_ "i" (some (.red .max [.cst 0]))
    (some (.red .min [.red .sum [.term 1 (.name "N")]])) 1
    [.guard [⟨.term 1 (.name "i"),
        .red .min [.bin .fdiv (.red .sum [.term 1 (.name "N"), .cst (-1)]) 2], -1⟩]
      [.user 7 [.term 1 (.name "i"), .red .sum [.term 1 (.name "i"), .cst 1]]]]] := rfl
  rw [this] at h
  cases h
  decide +kernel

example (ss : List Stmt) (h : clastCreate exC gmpCmp exTree = some ss) :=
  C35_program exStmt exStmt_ok exC exC_print gmpCmp exTree (by decide) ss h 0

/-! ## C36: brackets -/

/-- Are all brackets closed, in the right order? `st` are the open ones, innermost first. -/
def closes : List Char → List Char → Bool
  | st, [] => st.isEmpty
  | st, c :: cs =>
    if c = '(' ∨ c = '{' then closes (c :: st) cs
    else if c = ')' then
      match st with
      | [] => false
      | o :: st => if o = '(' then closes st cs else false
    else if c = '}' then
      match st with
      | [] => false
      | o :: st => if o = '{' then closes st cs else false
    else closes st cs

/-- Not a bracket. -/
def plain (c : Char) : Bool := !(c == '(' || c == ')' || c == '{' || c == '}')

/-- Characters that leave no bracket open. -/
def Bal (cs : List Char) : Prop := ∀ st rest, closes st (cs ++ rest) = closes st rest

theorem Bal.nil : Bal [] := fun _ _ => rfl

theorem Bal.append {a b : List Char} (ha : Bal a) (hb : Bal b) : Bal (a ++ b) := by
  intro st rest
  rw [List.append_assoc, ha, hb]

theorem Bal.plain {cs : List Char} (h : cs.all plain = true) : Bal cs := by
  induction cs with
  | nil => exact .nil
  | cons c cs ih =>
    simp only [List.all_cons, Bool.and_eq_true, Verif.Props.PPrint.plain, Bool.not_eq_true', Bool.or_eq_false_iff,
      beq_eq_false_iff_ne, ne_eq] at h
    obtain ⟨⟨⟨⟨h1, h2⟩, h3⟩, h4⟩, h5⟩ := h
    intro st rest
    rw [List.cons_append]
    have e : closes st (c :: (cs ++ rest)) = closes st (cs ++ rest) := by
      conv => lhs; unfold closes
      simp only [h1, h2, h3, h4, or_self, if_false]
    rw [e]
    exact ih (by simpa [Verif.Props.PPrint.plain] using h5) st rest

theorem Bal.paren {a : List Char} (ha : Bal a) : Bal ('(' :: (a ++ [')'])) := by
  intro st rest
  have e : closes st ('(' :: (a ++ [')']) ++ rest) = closes ('(' :: st) (a ++ (')' :: rest)) := by
    rw [List.cons_append, List.append_assoc]
    rfl
  rw [e, ha]
  rfl

theorem Bal.brace {a : List Char} (ha : Bal a) : Bal ('{' :: (a ++ ['}'])) := by
  intro st rest
  have e : closes st ('{' :: (a ++ ['}']) ++ rest) = closes ('{' :: st) (a ++ ('}' :: rest)) := by
    rw [List.cons_append, List.append_assoc]
    rfl
  rw [e, ha]
  rfl

/-- Names without brackets, in expressions. -/
def plainName (s : String) : Bool := s.toList.all plain

mutual
/-- All names in an expression are without brackets. -/
def plainE : Expr → Bool
  | .name s => plainName s
  | .cst _ => true
  | .term _ v => plainE v
  | .bin _ l _ => plainE l
  | .red _ es => plainEs es
/-- The same for lists. -/
def plainEs : List Expr → Bool
  | [] => true
  | e :: es => plainE e && plainEs es
end

/-- Of an optional expression. -/
def plainO : Option Expr → Bool
  | some e => plainE e
  | none => true

mutual
/-- The names of a statement have no brackets. -/
def plainS (nm : Nat → String) : Stmt → Bool
  | .ass x e => plainName x && plainE e
  | .user k args => plainName (nm k) && plainEs args
  | .block body => plainSs nm body
  | .guard qs body => qs.all (fun (q : Eqn) => plainE q.lhs && plainE q.rhs) && plainSs nm body
  | .for_ it lb ub _ body => plainName it && plainO lb && plainO ub && plainSs nm body
/-- All of them. -/
def plainSs (nm : Nat → String) : List Stmt → Bool
  | [] => true
  | s :: ss => plainS nm s && plainSs nm ss
end

mutual
/-- The number of loops, guards and blocks. -/
def braces : Stmt → Nat
  | .ass _ _ => 0
  | .user _ _ => 0
  | .block body => bracess body + 1
  | .guard _ body => bracess body + 1
  | .for_ _ _ _ _ body => bracess body + 1
/-- Of a list. -/
def bracess : List Stmt → Nat
  | [] => 0
  | s :: ss => braces s + bracess ss
end

/-- Spelling of tokens. -/
def spells (ts : List Tok) : List Char := ts.flatMap spell

theorem spells_append (a b : List Tok) : spells (a ++ b) = spells a ++ spells b := by simp [spells]
theorem spells_cons (t : Tok) (b : List Tok) : spells (t :: b) = spell t ++ spells b := rfl

theorem text_toks (ts : List Tok) : text (toks ts) = spells ts := by
  induction ts with
  | nil => rfl
  | cons t ts ih => rw [toks_cons, text_cons, ih]; rfl

/-- Balanced, and no braces. -/
def BalP (cs : List Char) : Prop := Bal cs ∧ cs.count '}' = 0

theorem BalP.append {a b : List Char} (ha : BalP a) (hb : BalP b) : BalP (a ++ b) :=
  ⟨ha.1.append hb.1, by rw [List.count_append, ha.2, hb.2]⟩

theorem BalP.plain {cs : List Char} (h : cs.all plain = true) : BalP cs := by
  refine ⟨Bal.plain h, ?_⟩
  rw [List.count_eq_zero]
  intro hm
  have := List.all_eq_true.1 h _ hm
  revert this
  decide

theorem BalP.paren {a : List Char} (ha : BalP a) : BalP ('(' :: (a ++ [')'])) :=
  ⟨ha.1.paren, by
    rw [List.count_cons_of_ne (by decide), List.count_append, ha.2]
    decide⟩

theorem spell_num (n : Nat) : (spell (.num n)).all plain = true := by
  rw [List.all_eq_true]
  intro c hc
  have := ((dec_props (n + 1) n (by omega)).1 c hc).1
  simp only [Verif.Props.PPrint.plain, Bool.not_eq_true', Bool.or_eq_false_iff, beq_eq_false_iff_ne, ne_eq]
  refine ⟨⟨⟨?_, ?_⟩, ?_⟩, ?_⟩ <;> (rintro rfl; revert this; decide)

theorem printInt_bal (n : Int) : BalP (spells (printInt n)) := by
  unfold printInt
  split
  · refine BalP.plain ?_
    simp only [spells, List.flatMap_cons, List.flatMap_nil, List.append_nil, List.all_append, spell_num, Bool.and_true]
    decide
  · refine BalP.plain ?_
    simp only [spells, List.flatMap_cons, List.flatMap_nil, List.append_nil, spell_num]

theorem parens_bal {g : Bool} {ts : List Tok} (h : BalP (spells ts)) : BalP (spells (parens g ts)) := by
  unfold parens
  split
  · rw [spells_cons, spells_append]
    exact h.paren
  · exact h

theorem op_bal {a b : List Tok} {t : Tok} (ha : BalP (spells a)) (hb : BalP (spells b))
    (ht : (spell t).all plain = true) : BalP (spells (a ++ t :: b)) := by
  rw [spells_append, spells_cons]
  exact ha.append ((BalP.plain ht).append hb)

theorem call_bal {f : String} {a : List Tok} (ha : BalP (spells a)) (hf : plainName f = true) :
    BalP (spells (.id f :: .lpar :: (a ++ [.rpar]))) := by
  rw [spells_cons, spells_cons, spells_append]
  exact (BalP.plain hf).append ha.paren

mutual
theorem expr_bal : ∀ e, plainE e = true → BalP (spells (printExpr e))
  | .name s, h => by
    refine BalP.plain ?_
    simpa [printExpr, spells, spell, plainE, plainName] using h
  | .cst c, _ => by simpa [printExpr] using printInt_bal c
  | .term c v, h => by
    have hv := parens_bal (g := group v) (expr_bal v (by simpa [plainE] using h))
    rw [printExpr, spells_append]
    refine BalP.append ?_ hv
    unfold printCoef
    split
    · exact BalP.plain rfl
    · split
      · exact BalP.plain (by decide)
      · rw [spells_append]
        exact (printInt_bal c).append (BalP.plain (by decide))
  | .bin .fdiv l r, h => by
    have hl := expr_bal l (by simpa [plainE] using h)
    have := call_bal (f := "floord") (op_bal (t := .comma) hl (printInt_bal r) (by decide)) (by decide)
    simpa [printExpr] using this
  | .bin .cdiv l r, h => by
    have hl := expr_bal l (by simpa [plainE] using h)
    have := call_bal (f := "ceild") (op_bal (t := .comma) hl (printInt_bal r) (by decide)) (by decide)
    simpa [printExpr] using this
  | .bin .div l r, h => by
    have hl := parens_bal (g := group l) (expr_bal l (by simpa [plainE] using h))
    rw [printExpr]
    exact op_bal (t := .slash) hl (printInt_bal r) (by decide)
  | .bin .mod l r, h => by
    have hl := parens_bal (g := group l) (expr_bal l (by simpa [plainE] using h))
    rw [printExpr]
    exact op_bal (t := .percent) hl (printInt_bal r) (by decide)
  | .red t [], _ => by simpa [printExpr, spells] using BalP.plain (cs := []) rfl
  | .red .sum (e :: es), h => by
    have h' : plainE e = true ∧ plainEs es = true := by simpa [plainE, plainEs] using h
    rw [printExpr, spells_append]
    exact (expr_bal e h'.1).append (sum_bal es h'.2)
  | .red .min (e :: es), h => by
    have h' : plainE e = true ∧ plainEs es = true := by simpa [plainE, plainEs] using h
    have := mm_bal .min es h'.2 _ (expr_bal e h'.1)
    rw [printExpr]; swap; · simp
    exact this
  | .red .max (e :: es), h => by
    have h' : plainE e = true ∧ plainEs es = true := by simpa [plainE, plainEs] using h
    have := mm_bal .max es h'.2 _ (expr_bal e h'.1)
    rw [printExpr]; swap; · simp
    exact this
theorem sum_bal : ∀ es, plainEs es = true → BalP (spells (printSum es))
  | [], _ => by simpa [printSum, spells] using BalP.plain (cs := []) rfl
  | e :: es, h => by
    have h' : plainE e = true ∧ plainEs es = true := by simpa [plainEs] using h
    rw [printSum, spells_append, spells_append]
    refine BalP.append (BalP.append ?_ (expr_bal e h'.1)) (sum_bal es h'.2)
    split
    · exact BalP.plain (by decide)
    · exact BalP.plain rfl
theorem mm_bal (t : RedType) : ∀ es, plainEs es = true → ∀ acc, BalP (spells acc) →
    BalP (spells ((List.replicate es.length [Tok.id (mmName t), Tok.lpar]).flatten ++ acc ++ printMM es))
  | [], _ => fun acc h => by simpa [printMM] using h
  | e :: es, h => fun acc hacc => by
    have h' : plainE e = true ∧ plainEs es = true := by simpa [plainEs] using h
    have := call_bal (f := mmName t) (op_bal (t := .comma) hacc (expr_bal e h'.1) (by decide)) (by cases t <;> decide)
    have := mm_bal t es h'.2 _ this
    rw [printMM, List.length_cons, List.replicate_succ']
    simpa using this
end

theorem eqn_bal {q : Eqn} (h1 : plainE q.lhs = true) (h2 : plainE q.rhs = true) : BalP (text (printEqn q)) := by
  rw [printEqn, text_append, text_toks, text_cons, text_cons, text_cons, text_toks]
  refine (expr_bal _ h1).append (BalP.append (BalP.plain (by decide)) (BalP.append (BalP.plain ?_)
    (BalP.append (BalP.plain (by decide)) (expr_bal _ h2))))
  unfold relTok
  split
  · decide
  · split <;> decide

/-- The names of an equation have no brackets. -/
def plainQ (q : Eqn) : Bool := plainE q.lhs && plainE q.rhs

theorem eqn_paren_bal {q : Eqn} (h : plainQ q = true) : BalP ('(' :: (text (printEqn q) ++ [')'])) := by
  simp only [plainQ, Bool.and_eq_true] at h
  exact (eqn_bal h.1 h.2).paren

theorem eqns_bal : ∀ (qs : List Eqn), qs.all plainQ = true → BalP (text (printEqns qs))
  | [], _ => BalP.plain rfl
  | q :: qs, h => by
    simp only [List.all_cons, Bool.and_eq_true] at h
    have h1 := eqn_paren_bal h.1
    have h2 := eqns_bal qs h.2
    have e : text (printEqns (q :: qs)) = (" && ".toList ++ ('(' :: (text (printEqn q) ++ [')']))) ++
        text (printEqns qs) := by
      simp [printEqns, text_cons, text_append, Piece.chars, spell, sp]
    rw [e]
    exact ((BalP.plain (by decide)).append h1).append h2

theorem cond_bal : ∀ (qs : List Eqn), qs.all plainQ = true → BalP (text (printCond qs))
  | [], _ => BalP.plain rfl
  | [q], h => by
    have h1 := eqn_paren_bal (q := q) (by simpa using h)
    have e : text (printCond [q]) = '(' :: (text (printEqn q) ++ [')']) := by
      simp [printCond, text_cons, text_append, Piece.chars, spell]
      rfl
    rw [e]
    exact h1
  | q :: q2 :: qs, h => by
    simp only [List.all_cons, Bool.and_eq_true] at h
    have h1 := eqn_paren_bal h.1
    have h2 := eqns_bal (q2 :: qs) (by simpa using h.2)
    have e : text (printCond (q :: q2 :: qs)) = '(' :: (('(' :: (text (printEqn q) ++ [')']) ++
        text (printEqns (q2 :: qs))) ++ [')']) := by
      rw [printCond]
      · simp [text_cons, text_append, Piece.chars, spell]
        rfl
      · simp
    rw [e]
    exact (h1.append h2).paren

theorem args_bal : ∀ (es : List Expr), plainEs es = true → BalP (spells (printArgs es))
  | [], _ => BalP.plain rfl
  | [e], h => by
    have := parens_bal (g := safer e) (expr_bal e (by simpa [plainEs] using h))
    simpa [printArgs] using this
  | e :: e2 :: es, h => by
    simp only [plainEs, Bool.and_eq_true] at h
    have h1 := parens_bal (g := safer e) (expr_bal e h.1)
    have h2 := args_bal (e2 :: es) (by simpa [plainEs] using h.2)
    rw [printArgs]
    · exact op_bal (t := .comma) h1 h2 (by decide)
    · simp

theorem head_bal {it : String} {lb ub : Option Expr} {s : Int} (hi : plainName it = true) (hl : plainO lb = true)
    (hu : plainO ub = true) : ∃ cs, BalP cs ∧ spells (printHead it lb ub s) = cs ++ [')'] := by
  have hid : BalP (spell (.id it)) := BalP.plain hi
  have h1 : BalP (spells (printInit it lb)) := by
    cases lb with
    | none => exact BalP.plain rfl
    | some e =>
      simp only [printInit, spells_cons]
      exact hid.append (BalP.append (BalP.plain (by decide)) (expr_bal e hl))
  have h2 : BalP (spells (printTest it ub)) := by
    cases ub with
    | none => exact BalP.plain rfl
    | some e =>
      simp only [printTest, spells_cons]
      exact hid.append (BalP.append (BalP.plain (by decide)) (expr_bal e hu))
  have h3 : ∃ cs, BalP cs ∧ spells (printStep it s) = cs ++ [')'] := by
    unfold printStep
    split
    · refine ⟨spell .semi ++ (spell (.id it) ++ (spell .pluseq ++ spells (printInt s))), ?_, ?_⟩
      · exact (BalP.plain (by decide)).append (hid.append ((BalP.plain (by decide)).append (printInt_bal s)))
      · simp only [spells_cons, spells_append, List.append_assoc]
        rfl
    · refine ⟨spell .semi ++ (spell (.id it) ++ spell .incr), ?_, ?_⟩
      · exact (BalP.plain (by decide)).append (hid.append (BalP.plain (by decide)))
      · simp only [spells_cons, List.append_assoc]
        rfl
  obtain ⟨cs, hc, hs⟩ := h3
  refine ⟨spells (printInit it lb) ++ (spell .semi ++ (spells (printTest it ub) ++ cs)), ?_, ?_⟩
  · exact h1.append ((BalP.plain (by decide)).append (h2.append hc))
  · unfold printHead
    rw [spells_append, spells_cons, spells_append, hs]
    simp

/-- Balanced, with a number of closing braces. -/
def BalN (n : Nat) (cs : List Char) : Prop := Bal cs ∧ cs.count '}' = n

theorem BalP.n {cs : List Char} (h : BalP cs) : BalN 0 cs := h

theorem BalN.append {m n : Nat} {a b : List Char} (ha : BalN m a) (hb : BalN n b) : BalN (m + n) (a ++ b) :=
  ⟨ha.1.append hb.1, by rw [List.count_append, ha.2, hb.2]⟩

theorem BalN.brace {n : Nat} {a : List Char} (ha : BalN n a) : BalN (n + 1) ('{' :: (a ++ ['}'])) :=
  ⟨ha.1.brace, by
    rw [List.count_cons_of_ne (by decide), List.count_append, ha.2]
    rfl⟩

theorem ind_plain (n : Nat) : (List.replicate n ' ').all plain = true := by
  rw [List.all_eq_true]
  intro c hc
  rw [List.eq_of_mem_replicate hc]
  decide

theorem plainEs_iff (nm : Nat → String) (k : Nat) (args : List Expr) (h : plainS nm (.user k args) = true) :
    plainName (nm k) = true ∧ plainEs args = true := by
  simpa [plainS] using h

/-- The body of a loop, guard or block between braces. -/
theorem body_bal {n : Nat} {k : Nat} {b : List Char} (hb : BalN k b) :
    BalN (k + 1) ('{' :: (('\n' :: (b ++ List.replicate n ' ')) ++ ['}']) ++ ['\n']) := by
  have h1 : BalN k ('\n' :: (b ++ List.replicate n ' ')) := by
    have := (BalP.plain (cs := ['\n']) (by decide)).n.append (hb.append (BalP.plain (ind_plain n)).n)
    simpa using this
  exact h1.brace.append (BalP.plain (by decide)).n

mutual
theorem stmt_bal (nm : Nat → String) : ∀ (s : Stmt) (n : Nat), plainS nm s = true →
    BalN (braces s) (text (printStmt nm n s))
  | .ass x e, n, h => by
    simp only [plainS, Bool.and_eq_true] at h
    have e1 : text (printStmt nm n (.ass x e)) = spell (.id x) ++ (" = ".toList ++ (spells (printExpr e) ++ ";\n".toList)) := by
      simp [printStmt, text_cons, text_append, text_toks, Piece.chars, spell, sp, nl]
      rfl
    rw [e1]
    exact (BalP.plain (cs := spell (.id x)) h.1).append ((BalP.plain (by decide)).append ((expr_bal e h.2).append (BalP.plain (by decide))))
  | .user k args, n, h => by
    simp only [plainS, Bool.and_eq_true] at h
    have e1 : text (printStmt nm n (.user k args)) = spell (.id (nm k)) ++ (('(' :: (spells (printArgs args) ++ [')'])) ++
        ";\n".toList) := by
      simp [printStmt, text_append, text_toks, spells_cons, spells_append, text_cons, Piece.chars, spell, nl]
      rfl
    rw [e1]
    exact (BalP.plain (cs := spell (.id (nm k))) h.1).append ((args_bal args h.2).paren.append (BalP.plain (by decide)))
  | .block body, n, h => by
    simp only [plainS] at h
    have hb := stmts_bal nm body (n + indentStep) h
    have e1 : text (printStmt nm n (.block body)) = '{' :: (('\n' :: (text (printStmts nm (n + indentStep) body) ++
        List.replicate n ' ')) ++ ['}']) ++ ['\n'] := by
      simp [printStmt, text_cons, text_append, Piece.chars, spell, ind, nl]
      rfl
    rw [e1]
    exact body_bal hb
  | .guard qs body, n, h => by
    simp only [plainS, Bool.and_eq_true] at h
    have hb := body_bal (n := n) (stmts_bal nm body (n + indentStep) h.2)
    have e1 : text (printStmt nm n (.guard qs body)) = "if ".toList ++ (text (printCond qs) ++ (" ".toList ++
        ('{' :: (('\n' :: (text (printStmts nm (n + indentStep) body) ++ List.replicate n ' ')) ++ ['}']) ++ ['\n']))) := by
      simp [printStmt, text_cons, text_append, Piece.chars, spell, ind, nl, sp]
      rfl
    rw [e1]
    have := (BalP.plain (cs := "if ".toList) (by decide)).n.append ((cond_bal qs h.1).n.append
      ((BalP.plain (cs := " ".toList) (by decide)).n.append hb))
    simpa [braces] using this
  | .for_ it lb ub s body, n, h => by
    simp only [plainS, Bool.and_eq_true] at h
    have hb := body_bal (n := n) (stmts_bal nm body (n + indentStep) h.2)
    obtain ⟨cs, hc, hs⟩ := head_bal (s := s) h.1.1.1 h.1.1.2 h.1.2
    have e1 : text (printStmt nm n (.for_ it lb ub s body)) = "for ".toList ++ (('(' :: (cs ++ [')'])) ++ (" ".toList ++
        ('{' :: (('\n' :: (text (printStmts nm (n + indentStep) body) ++ List.replicate n ' ')) ++ ['}']) ++ ['\n']))) := by
      simp [printStmt, text_cons, text_append, text_toks, hs, Piece.chars, spell, ind, nl, sp]
      rfl
    rw [e1]
    have := (BalP.plain (cs := "for ".toList) (by decide)).n.append (hc.paren.n.append
      ((BalP.plain (cs := " ".toList) (by decide)).n.append hb))
    simpa [braces] using this
theorem stmts_bal (nm : Nat → String) : ∀ (ss : List Stmt) (n : Nat), plainSs nm ss = true →
    BalN (bracess ss) (text (printStmts nm n ss))
  | [], _, _ => BalP.plain rfl
  | s :: ss, n, h => by
    simp only [plainSs, Bool.and_eq_true] at h
    have e1 : text (printStmts nm n (s :: ss)) = List.replicate n ' ' ++ (text (printStmt nm n s) ++
        text (printStmts nm n ss)) := by
      simp [printStmts, text_cons, text_append, Piece.chars, ind]
    rw [e1]
    have := (BalP.plain (ind_plain n)).n.append ((stmt_bal nm s n h.1).append (stmts_bal nm ss n h.2))
    simpa [bracess] using this
end

/-- Whatever the clast, the brackets of the printed text are closed in the right order, and there is one
closing brace for each loop, guard and block.  Only that names contain no brackets is assumed. -/
theorem C36_balanced_partial (nm : Nat → String) (n : Nat) (ss : List Stmt) (h : plainSs nm ss = true) :
    closes [] (text (printStmts nm n ss)) = true ∧ (text (printStmts nm n ss)).count '}' = bracess ss := by
  obtain ⟨h1, h2⟩ := stmts_bal nm ss n h
  refine ⟨?_, h2⟩
  have := h1 [] []
  rw [List.append_nil] at this
  rw [this]
  rfl

example : plainSs exStmt [.for_ "i" none (some (.red .min [])) 0 [.guard [] [.block [.user 3 [exE]]]]] = true := by
  decide +kernel

end Verif.Props.PPrint
