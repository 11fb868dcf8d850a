import Verif.Model.PText
import Verif.Props.PPrint

/-!
# C36, C52, C55: the printed text in both languages
-/

namespace Verif.Props.PText
open Verif.CText Verif.Clast Verif.ClastGen Verif.PPrint Verif.PText Verif.PLex Verif.PGlue Verif.Props.PPrint

/-! ## Agreement with the token printer -/

theorem lit_eq (s : String) : lit s = s.toList := by unfold lit; rfl

theorem intC_eq (n : Int) : intC n = spells (printInt n) := by
  unfold intC printInt
  split <;> simp [spells, spell]

theorem coefC_eq (c : Int) : coefC c = spells (printCoef c) := by
  unfold coefC printCoef
  split
  · rfl
  · split
    · rfl
    · rw [spells_append, intC_eq]; rfl

theorem parenC_eq (g : Bool) (ts : List Tok) : parenC g (spells ts) = spells (parens g ts) := by
  unfold parenC parens
  split
  · rw [spells_cons, spells_append]; rfl
  · rfl

theorem mmOpen_eq (t : RedType) (n : Nat) :
    mmOpen .c t n = spells (List.replicate n [Tok.id (mmName t), Tok.lpar]).flatten := by
  have : mmC .c t = spells [Tok.id (mmName t), Tok.lpar] := by cases t <;> simp [mmC, lit_eq, spells, spell, mmName]
  simp only [mmOpen, this]
  induction n with
  | zero => rfl
  | succ n ih => rw [List.replicate_succ, List.replicate_succ, List.flatten_cons, List.flatten_cons, ih, spells_append]

mutual
theorem expr_eq : ∀ e, exprC .c e = spells (printExpr e)
  | .name s => by simp [exprC, printExpr, spells, spell]
  | .cst c => by simp [exprC, printExpr, intC_eq]
  | .term c v => by rw [exprC, printExpr, spells_append, coefC_eq, expr_eq v, parenC_eq]
  | .bin .fdiv l r => by
    rw [exprC, printExpr, expr_eq l, intC_eq]
    simp only [spells_cons, spells_append, binC, lit_eq]
    simp [spells, spell]
  | .bin .cdiv l r => by
    rw [exprC, printExpr, expr_eq l, intC_eq]
    simp only [spells_cons, spells_append, binC, lit_eq]
    simp [spells, spell]
  | .bin .div l r => by
    rw [exprC, printExpr, expr_eq l, intC_eq, spells_append, spells_cons, ← parenC_eq]
    unfold parenC
    cases group l <;> simp [binC, spell]
  | .bin .mod l r => by
    rw [exprC, printExpr, expr_eq l, intC_eq, spells_append, spells_cons, ← parenC_eq]
    unfold parenC
    cases group l <;> simp [binC, spell]
  | .red t [] => by simp [exprC, printExpr, spells]
  | .red .sum (e :: es) => by rw [exprC, printExpr, spells_append, expr_eq e, sum_eq es]
  | .red .min (e :: es) => by
    rw [exprC, printExpr, spells_append, spells_append, expr_eq e, ops_eq es, mmOpen_eq]
    · simp [mmClose]
    · simp
    · simp
  | .red .max (e :: es) => by
    rw [exprC, printExpr, spells_append, spells_append, expr_eq e, ops_eq es, mmOpen_eq]
    · simp [mmClose]
    · simp
    · simp
theorem sum_eq : ∀ es, sumC .c es = spells (printSum es)
  | [] => rfl
  | e :: es => by
    rw [sumC, printSum, spells_append, spells_append, expr_eq e, sum_eq es, List.append_assoc]
    congr 1
    split <;> rfl
theorem ops_eq : ∀ es, opsC .c es = spells (printMM es)
  | [] => rfl
  | e :: es => by
    rw [opsC, printMM, spells_append, spells_append, spells_cons, expr_eq e, ops_eq es]
    simp [mmAfter, spells, spell]
end

theorem args_eq : ∀ es : List Expr, argsC .c (es.map fun e => (none, e)) = spells (printArgs es)
  | [] => rfl
  | [e] => by simp [argsC, printArgs, saferA, assC, expr_eq, parenC_eq]
  | e :: e2 :: es => by
    have ih := args_eq (e2 :: es)
    simp only [List.map_cons] at ih ⊢
    rw [argsC, printArgs, spells_append, spells_cons, ← ih, saferA, assC, expr_eq, parenC_eq]
    · simp [spell]
    · simp
    · simp

theorem eqn_eq (q : Eqn) : eqnC .c q = text (printEqn q) := by
  simp only [eqnC, printEqn, text_append, text_cons, text_toks, expr_eq, relTok]
  congr 1
  split
  · simp [Piece.chars, sp, spell, lit_eq]
  · split <;> simp [Piece.chars, sp, spell, lit_eq]

theorem eqns_eq : ∀ qs, eqnsC .c qs = text (printEqns qs)
  | [] => rfl
  | q :: qs => by
    rw [eqnsC, printEqns, eqns_eq qs, eqn_eq]
    simp [text_cons, text_append, Piece.chars, sp, spell, andC, lit_eq]

theorem cond_eq : ∀ qs, condC .c qs = text (printCond qs)
  | [] => rfl
  | [q] => by
    simp only [condC, printCond, eqn_eq, eqnsC, parenC]
    simp [text_cons, text_append, Piece.chars, spell]
    rfl
  | q :: q2 :: qs => by
    rw [condC, printCond, eqns_eq, eqn_eq]
    · simp [parenC, text_cons, text_append, Piece.chars, spell]
      rfl
    · simp

mutual
/-- A statement as code generation leaves it. -/
def emb : Stmt → PStmt
  | .ass x e => .ass (some x) e
  | .user k args => .user k (args.map fun e => (none, e))
  | .block b => .block (embs b)
  | .guard qs b => .guard qs (embs b)
  | .for_ it lb ub s b => .for_ it lb ub s {} (embs b)
/-- All of them. -/
def embs : List Stmt → List PStmt
  | [] => []
  | s :: ss => emb s :: embs ss
end

/-- The name printed for a statement. -/
def nmOf (f : Cfg) (k : Nat) : String :=
  if f.callable then String.ofList (defName k) else (f.name k).getD (String.ofList (defName k))

theorem call_eq {f : Cfg} (hl : f.lang = .c) (k : Nat) (args : List Expr) :
    callC f k (args.map fun e => (none, e)) = text (toks (.id (nmOf f k) :: .lpar :: (printArgs args ++ [.rpar, .semi])) ++ [nl]) := by
  have h1 : callC f k (args.map fun e => (none, e)) = (nmOf f k).toList ++
      ('(' :: (argsC f.lang (args.map fun e => (none, e)) ++ (')' :: endC f.lang))) := by
    unfold nmOf callC callName
    congr 1
    split
    · simp
    · cases f.name k <;> simp
  rw [h1, hl, args_eq, text_append, text_toks, spells_cons, spells_cons, spells_append]
  simp [spells, spell, endC, text, nl, Piece.chars]

theorem head_eq (it : String) (lb ub : Option Expr) (s : Int) :
    headC .c it lb ub s {} = lit "for (" ++ (spells (printHead it lb ub s) ++ " {\n".toList) := by
  have hs : stepC .c it s = spells (printStep it s) ++ " {\n".toList := by
    unfold stepC printStep
    dsimp only
    split
    · simp [spells_cons, spells_append, intC_eq, lit_eq]
      simp [spells, spell]
    · simp [spells, spell, lit_eq]
  simp only [headC, forC, hs, printHead, spells_append, spells_cons, List.append_assoc]
  congr 1
  cases lb <;> cases ub <;>
    simp [printInit, printTest, spells_cons, boundC, expr_eq, lit_eq, initC, testC] <;> simp [spells, spell]

mutual
theorem stmt_eq {f : Cfg} (hl : f.lang = .c) (hb : f.callable = true ∨ ∀ k, f.body k = none) :
    ∀ (n : Nat) (last : Bool) (s : Stmt), stmtC f n last (emb s) = some (text (ind n :: printStmt (nmOf f) n s))
  | n, last, .ass x e => by
    simp only [emb, stmtC, hl, assC, endC, printStmt, text_cons, text_append, text_toks, expr_eq]
    simp [Piece.chars, ind, indC, sp, spell, nl, text, lit_eq]
  | n, last, .user k args => by
    have : userC f k (args.map fun e => (none, e)) = some (callC f k (args.map fun e => (none, e))) := by
      unfold userC
      rcases hb with h | h
      · rw [if_pos h]
      · rw [h k]; simp
    simp only [emb, stmtC, this, Option.map_some, call_eq hl, printStmt, text_cons]
    rfl
  | n, last, .block b => by
    simp only [emb, stmtC, stmts_eq hl hb (n + indentStep) b, Option.map_some, printStmt, text_cons, text_append]
    simp [Piece.chars, ind, indC, spell, nl, text, lit_eq]
  | n, last, .guard qs b => by
    simp only [emb, stmtC, stmts_eq hl hb (n + indentStep) b, Option.map_some, printStmt, text_cons, text_append, hl, cond_eq]
    simp [Piece.chars, ind, indC, spell, nl, text, ifC, sp, lit_eq]
  | n, last, .for_ it lb ub s b => by
    simp only [emb, stmtC, stmts_eq hl hb (n + indentStep) b, Option.map_some, printStmt, text_cons, text_append, hl,
      head_eq, text_toks]
    simp [Piece.chars, ind, indC, spell, nl, text, sp, beforeC, timeStart, afterC, timeEnd, forC, lit_eq]
theorem stmts_eq {f : Cfg} (hl : f.lang = .c) (hb : f.callable = true ∨ ∀ k, f.body k = none) :
    ∀ (n : Nat) (ss : List Stmt), stmtsC f n (embs ss) = some (text (printStmts (nmOf f) n ss))
  | n, [] => rfl
  | n, s :: ss => by
    rw [embs, stmtsC, stmt_eq hl hb n _ s, stmts_eq hl hb n ss, printStmts]
    simp [cat, text_cons, text_append]
end

/-- For a clast from code generation, in C and without OpenScop bodies, the text is that of C35; with
`-callable` an empty program is the statement `S0`. -/
theorem C36_same_text {f : Cfg} (hl : f.lang = .c) (hb : f.callable = true ∨ ∀ k, f.body k = none) (n : Nat)
    (ss : List Stmt) : pprint f n (.root :: embs ss) =
      some (if f.callable = true ∧ ss = [] then indC n ++ lit "S0\n" else text (printStmts (nmOf f) n ss)) := by
  rw [pprint, if_neg (by simp [hl]), stmtsC, stmtC, stmts_eq hl hb n ss]
  cases ss with
  | nil => cases hc : f.callable <;> simp [cat, embs, printStmts, text]
  | cons s ss => simp [cat, embs]

/-! ## C36: brackets, both languages -/

theorem bin_bal (l : Lang) (t : BinType) (g : Bool) (r : Int) {a : List Char} (ha : BalP a) :
    BalP ((binC l t g).1 ++ (a ++ ((binC l t g).2.1 ++ (intC r ++ (binC l t g).2.2)))) := by
  have hr : BalP (intC r) := intC_eq r ▸ printInt_bal r
  have call : ∀ (s m : String), plainName s = true → plainName m = true →
      BalP ((s.toList ++ ['(']) ++ (a ++ (m.toList ++ (intC r ++ [')'])))) := by
    intro s m hs hm
    have := (BalP.plain hs).append (BalP.paren (ha.append ((BalP.plain hm).append hr)))
    simpa using this
  have real : ∀ (s : String), plainName s = true →
      BalP ((s.toList ++ "(REAL(".toList) ++ (a ++ (")/REAL(".toList ++ (intC r ++ "))".toList)))) := by
    intro s hs
    have := (BalP.plain hs).append (BalP.paren ((BalP.plain (cs := "REAL".toList) (by decide)).append (ha.paren.append
      ((BalP.plain (cs := "/REAL".toList) (by decide)).append hr.paren))))
    simpa using this
  have op : ∀ (m : Char), plain m = true → BalP (a ++ ([m] ++ (intC r ++ []))) := by
    intro m hm
    have := ha.append ((BalP.plain (cs := [m]) (by simpa using hm)).append hr)
    simpa using this
  have grp : ∀ (m : Char), plain m = true → BalP (['('] ++ (a ++ ([')', m] ++ (intC r ++ [])))) := by
    intro m hm
    have := ha.paren.append ((BalP.plain (cs := [m]) (by simpa using hm)).append hr)
    simpa using this
  cases l <;> cases t <;> simp only [binC, lit_eq]
  · exact call "floord" "," (by decide) (by decide)
  · exact call "ceild" "," (by decide) (by decide)
  · cases g
    · exact op '/' (by decide)
    · exact grp '/' (by decide)
  · cases g
    · exact op '%' (by decide)
    · exact grp '%' (by decide)
  · exact real "FLOOR" (by decide)
  · exact real "CEILING" (by decide)
  · cases g
    · exact op '/' (by decide)
    · exact grp '/' (by decide)
  · exact call "MOD" ", " (by decide) (by decide)

theorem parenC_bal {g : Bool} {a : List Char} (ha : BalP a) : BalP (parenC g a) := by
  unfold parenC
  split
  · exact ha.paren
  · exact ha

theorem coefC_bal (c : Int) : BalP (coefC c) := by
  unfold coefC
  split
  · exact BalP.plain rfl
  · split
    · exact BalP.plain (by decide)
    · exact (intC_eq c ▸ printInt_bal c).append (BalP.plain (by decide))

mutual
theorem exprC_bal (l : Lang) : ∀ e, plainE e = true → BalP (exprC l e)
  | .name s, h => BalP.plain (by simpa [exprC, plainE, plainName] using h)
  | .cst c, _ => by
    rw [exprC]
    exact intC_eq c ▸ printInt_bal c
  | .term c v, h => by
    rw [exprC]
    exact (coefC_bal c).append (parenC_bal (exprC_bal l v (by simpa [plainE] using h)))
  | .bin t a r, h => by
    rw [exprC]
    exact bin_bal l t _ r (exprC_bal l a (by simpa [plainE] using h))
  | .red t [], _ => by
    rw [exprC]
    exact BalP.plain rfl
  | .red .sum (e :: es), h => by
    have h' : plainE e = true ∧ plainEs es = true := by simpa [plainE, plainEs] using h
    rw [exprC]
    exact (exprC_bal l e h'.1).append (sumC_bal l es h'.2)
  | .red .min (e :: es), h => by
    have h' : plainE e = true ∧ plainEs es = true := by simpa [plainE, plainEs] using h
    rw [exprC]; swap; · simp
    exact mmC_bal l .min es h'.2 _ (exprC_bal l e h'.1)
  | .red .max (e :: es), h => by
    have h' : plainE e = true ∧ plainEs es = true := by simpa [plainE, plainEs] using h
    rw [exprC]; swap; · simp
    exact mmC_bal l .max es h'.2 _ (exprC_bal l e h'.1)
theorem sumC_bal (l : Lang) : ∀ es, plainEs es = true → BalP (sumC l es)
  | [], _ => BalP.plain rfl
  | e :: es, h => by
    have h' : plainE e = true ∧ plainEs es = true := by simpa [plainEs] using h
    rw [sumC]
    refine BalP.append ?_ ((exprC_bal l e h'.1).append (sumC_bal l es h'.2))
    split
    · exact BalP.plain (by decide)
    · exact BalP.plain rfl
theorem mmC_bal (l : Lang) (t : RedType) : ∀ es, plainEs es = true → ∀ acc, BalP acc →
    BalP (mmOpen l t es.length ++ (acc ++ (opsC l es ++ mmClose l es.length)))
  | [], _ => fun acc h => by cases l <;> simpa [opsC, mmOpen, mmClose] using h
  | e :: es, h => fun acc hacc => by
    have h' : plainE e = true ∧ plainEs es = true := by simpa [plainEs] using h
    have he := exprC_bal l e h'.1
    cases l with
    | c =>
      obtain ⟨w, hw, hp⟩ : ∃ w, (mmC .c t = w ++ ['(']) ∧ w.all plain = true := by
        cases t
        exacts [⟨"min".toList, by simp [mmC, lit_eq], by decide⟩, ⟨"min".toList, by simp [mmC, lit_eq], by decide⟩,
          ⟨"max".toList, by simp [mmC, lit_eq], by decide⟩]
      have h1 : BalP (mmC .c t ++ (acc ++ (',' :: (exprC .c e ++ [')'])))) := by
        have := (BalP.plain hp).append (BalP.paren (hacc.append ((BalP.plain (cs := [',']) (by decide)).append he)))
        rw [hw]
        simpa using this
      have := mmC_bal .c t es h'.2 _ h1
      simp only [mmOpen, opsC, mmClose, List.length_cons, List.replicate_succ', List.flatten_append, mmAfter] at this ⊢
      simpa using this
    | fortran =>
      obtain ⟨w, hw, hp⟩ : ∃ w, (mmC .fortran t = w ++ ['(']) ∧ w.all plain = true := by
        cases t
        exacts [⟨"MIN".toList, by simp [mmC, lit_eq], by decide⟩, ⟨"MIN".toList, by simp [mmC, lit_eq], by decide⟩,
          ⟨"MAX".toList, by simp [mmC, lit_eq], by decide⟩]
      have h1 : BalP (acc ++ (',' :: exprC .fortran e)) := by
        have := hacc.append ((BalP.plain (cs := [',']) (by decide)).append he)
        simpa using this
      have h2 := opsF_bal es h'.2
      have := (BalP.plain hp).append (BalP.paren (h1.append h2))
      simp only [mmOpen, opsC, mmClose, List.length_cons, mmAfter, hw]
      simpa using this
theorem opsF_bal : ∀ es, plainEs es = true → BalP (opsC .fortran es)
  | [], _ => BalP.plain rfl
  | e :: es, h => by
    have h' : plainE e = true ∧ plainEs es = true := by simpa [plainEs] using h
    have := (BalP.plain (cs := [',']) (by decide)).append ((exprC_bal .fortran e h'.1).append (opsF_bal es h'.2))
    rw [opsC]
    simpa [mmAfter] using this
end

theorem args_bal (l : Lang) : ∀ (as : List (Option String × Expr)),
    (∀ a ∈ as, (∀ x, a.1 = some x → plainName x = true) ∧ plainE a.2 = true) → BalP (argsC l as)
  | [], _ => BalP.plain rfl
  | [a], h => by
    rw [argsC]
    exact parenC_bal (assC_bal l a (h a (by simp)))
  | a :: b :: as, h => by
    rw [argsC]; swap; · simp
    have := (parenC_bal (g := saferA a) (assC_bal l a (h a (by simp)))).append
      ((BalP.plain (cs := [',']) (by decide)).append (args_bal l (b :: as) (fun x hx => h x (by simp [hx]))))
    simpa using this
where
  assC_bal (l : Lang) (a : Option String × Expr)
      (h : (∀ x, a.1 = some x → plainName x = true) ∧ plainE a.2 = true) : BalP (assC l a) := by
    obtain ⟨x, e⟩ := a
    have he := exprC_bal l e h.2
    cases x with
    | none => exact he
    | some x =>
      rw [assC, lit_eq]
      exact (BalP.plain (h.1 x rfl)).append ((BalP.plain (by decide)).append he)

/-! ## C55: OpenScop bodies -/

/-- A body as its author wrote it: characters and iterators. -/
inductive Part
  | ch (c : Char)
  | it (k : Nat)

/-- The text with markers (`osl_util_identifier_substitution`): `@k@` for iterator `k`. -/
def mark : List Part → List Char
  | [] => []
  | .ch c :: ps => c :: mark ps
  | .it k :: ps => '@' :: (decChars (k + 1) k ++ '@' :: mark ps)

/-- The body with the iterators replaced by the substitutions. -/
def fill (l : Lang) (args : List (Option String × Expr)) : List Part → Option (List Char)
  | [] => some []
  | .ch c :: ps => (fill l args ps).map fun r => c :: r
  | .it k :: ps =>
    match args[k]? with
    | none => none
    | some a => (fill l args ps).map fun r => assC l a ++ r

/-- Less than ten iterators, and no other `@`. -/
def Marked (ps : List Part) : Prop := ∀ p ∈ ps, match p with | .ch c => c ≠ '@' | .it k => k < 10

theorem scan_digit : ∀ (k : Nat), k < 10 → ∀ (r : List Char), scanD (Char.ofNat (48 + k) :: '@' :: r) = some (k : Int)
  | 0, _, _ | 1, _, _ | 2, _, _ | 3, _, _ | 4, _, _ | 5, _, _ | 6, _, _ | 7, _, _ | 8, _, _ | 9, _, _ => rfl
  | k + 10, h, _ => by omega

theorem body_go (l : Lang) (args : List (Option String × Expr)) : ∀ (ps : List Part), Marked ps → ∀ n,
    (mark ps).length ≤ n → bodyGo l args n (mark ps) = fill l args ps
  | [], _, n, _ => by cases n <;> rfl
  | .ch c :: ps, h, 0, hn => by simp [mark] at hn
  | .ch c :: ps, h, n + 1, hn => by
    have hc : c ≠ '@' := h (.ch c) (by simp)
    have := body_go l args ps (fun p hp => h p (by simp [hp])) n (by simpa [mark] using hn)
    rw [mark, bodyGo, if_neg hc, this, fill]
  | .it k :: ps, h, 0, hn => by simp [mark] at hn
  | .it k :: ps, h, n + 1, hn => by
    have hk : k < 10 := h (.it k) (by simp)
    have hd : decChars (k + 1) k = [Char.ofNat (48 + k)] := by rw [decChars, if_pos hk]
    simp only [mark, hd, List.singleton_append] at hn ⊢
    have := body_go l args ps (fun p hp => h p (by simp [hp])) n (by simp at hn; omega)
    rw [bodyGo, if_pos rfl, scan_digit k hk]
    simp only [Int.toNat_natCast, fill]
    cases args[k]? with
    | none => rfl
    | some a =>
      simp only [List.length_cons]
      rw [if_neg (by omega)]
      simp [this]

/-- With at most ten iterators, each marker is replaced by its substitution and the rest of the body is
printed as it is. -/
theorem C55_bodies_partial (l : Lang) (args : List (Option String × Expr)) (ps : List Part) (h : Marked ps)
    (pre post : List ALine) : bodyC l args ⟨pre, mark ps, post⟩ =
      (fill l args ps).map fun t => linesC pre ++ (t ++ '\n' :: linesC post) := by
  rw [bodyC, body_go l args ps h _ le_rfl]

/-- What is missing is false: an iterator numbered 10 to 99, followed by anything that does not look like
a number, makes the printer read an uninitialised number. -/
theorem C55_ten (l : Lang) (args : List (Option String × Expr)) (k : Nat) (h1 : 10 ≤ k) (h2 : k < 100) (c : Char)
    (hd : c.isDigit = false) (hs : c ≠ '-') (hp : c ≠ '+') (hw : isWs c = false) (ps : List Part) (pre post : List ALine) :
    bodyC l args ⟨pre, mark (.it k :: .ch c :: ps), post⟩ = none := by
  have hdec : decChars (k + 1) k = [Char.ofNat (48 + k / 10), Char.ofNat (48 + k % 10)] := by
    have e : k + 1 = (k - 1) + 1 + 1 := by omega
    rw [e, decChars, if_neg (by omega), decChars, if_pos (by omega)]
    rfl
  have hsc : ∀ r, scanD ('@' :: r) = none := fun r => rfl
  have hsc2 : ∀ r, scanD (c :: r) = none := by
    intro r
    unfold scanD
    rw [List.dropWhile_cons_of_neg (by simp [hw])]
    dsimp only
    split
    · next he => cases he; exact absurd rfl hs
    · next he => cases he; exact absurd rfl hp
    · rw [List.takeWhile_cons_of_neg (by simp [hd])]
      simp
  have hlast : ∀ n, bodyGo l args n ('@' :: c :: mark ps) = none := by
    intro n
    cases n with
    | zero => rfl
    | succ n => rw [bodyGo, if_pos rfl, hsc2]
  unfold bodyC
  simp only [mark, hdec]
  rw [List.length_cons, bodyGo, if_pos rfl]
  generalize scanD _ = o
  cases o with
  | none => rfl
  | some i =>
    simp only
    cases args[i.toNat]? with
    | none => rfl
    | some a =>
      simp only [List.cons_append, List.nil_append]
      rw [if_neg (by simp)]
      simp [hlast]

/-- Two iterators. -/
def exParts : List Part := [.ch 'A', .ch '[', .it 1, .ch ']', .ch '=', .it 0, .ch ';']

example : Marked exParts ∧ mark exParts = "A[@1@]=@0@;".toList ∧
    bodyC .c [(none, .name "i"), (none, exE)] ⟨[⟨true, true, "foo"⟩], mark exParts, []⟩ =
      some "#pragma foo\nA[max(max(ceild(-2*i+N-3,4),0),-floord(3*j,2))]=i;\n".toList := by
  refine ⟨?_, by decide, by decide +kernel⟩
  intro p hp
  simp only [exParts, List.mem_cons, List.not_mem_nil, or_false] at hp
  rcases hp with rfl | rfl | rfl | rfl | rfl | rfl | rfl <;> decide

/-! ## C36: statements -/

theorem fill_bal {l : Lang} {args : List (Option String × Expr)}
    (ha : ∀ a ∈ args, (∀ x, a.1 = some x → plainName x = true) ∧ plainE a.2 = true) :
    ∀ (ps : List Part) (t : List Char), fill l args ps = some t →
      (∀ st rest, closes st (t ++ rest) = closes st (ps.filterMap (fun p => match p with | .ch c => some c | .it _ => none) ++ rest)) ∧
      t.count '}' = (ps.filterMap (fun p => match p with | .ch c => some c | .it _ => none)).count '}'
  | [], t, h => by
    cases h
    exact ⟨fun _ _ => rfl, rfl⟩
  | .ch c :: ps, t, h => by
    simp only [fill, Option.map_eq_some_iff] at h
    obtain ⟨r, hr, rfl⟩ := h
    obtain ⟨h1, h2⟩ := fill_bal ha ps r hr
    refine ⟨?_, ?_⟩
    · intro st rest
      simp only [List.filterMap_cons, List.cons_append]
      unfold closes
      simp only [h1]
    · simp only [List.filterMap_cons, List.count_cons, h2]
  | .it k :: ps, t, h => by
    simp only [fill] at h
    split at h
    · exact absurd h (by simp)
    · next a hk =>
      simp only [Option.map_eq_some_iff] at h
      obtain ⟨r, hr, rfl⟩ := h
      obtain ⟨h1, h2⟩ := fill_bal ha ps r hr
      have hb := args_bal.assC_bal l a (ha a (List.mem_of_getElem? hk))
      refine ⟨?_, ?_⟩
      · intro st rest
        simp only [List.filterMap_cons]
        rw [List.append_assoc, hb.1, h1]
      · simp only [List.filterMap_cons, List.count_append, hb.2, h2, Nat.zero_add]

/-- The characters of a body other than markers. -/
def own (ps : List Part) : List Char := ps.filterMap (fun p => match p with | .ch c => some c | .it _ => none)

/-- Names without brackets where they are printed; OpenScop bodies with closed brackets of their own and at
most ten iterators. -/
def Plain (f : Cfg) : Prop :=
  (∀ k n, f.name k = some n → plainName n = true) ∧
  ∀ k b, f.body k = some b → Bal (linesC b.pre) ∧ Bal (linesC b.post) ∧
    ∃ ps, b.expr = mark ps ∧ Marked ps ∧ Bal (own ps)

/-- An optional string without brackets. -/
def plainOS : Option String → Bool
  | some s => plainName s
  | none => true

mutual
/-- The names in a statement have no brackets. -/
def plainP : PStmt → Bool
  | .root => true
  | .ass x e => plainOS x && plainE e
  | .user _ args => args.all fun a => plainOS a.1 && plainE a.2
  | .block b => plainPs b
  | .guard qs b => qs.all plainQ && plainPs b
  | .for_ it lb ub _ a b => plainName it && plainO lb && plainO ub && plainOS a.privateVars && plainOS a.reductionVars &&
      plainOS a.timeVar && plainOS a.directive && plainPs b
/-- All of them. -/
def plainPs : List PStmt → Bool
  | [] => true
  | s :: ss => plainP s && plainPs ss
end

mutual
/-- The closing braces to be expected: blocks; loops and guards in C; those in OpenScop bodies. -/
def bracesP (f : Cfg) : PStmt → Nat
  | .root => 0
  | .ass _ _ => 0
  | .user k _ => if f.callable then 0 else
      match f.body k with
      | some b => (linesC b.pre).count '}' + b.expr.count '}' + (linesC b.post).count '}'
      | none => 0
  | .block b => bracesPs f b + 1
  | .guard _ b => bracesPs f b + (if f.lang = .c then 1 else 0)
  | .for_ _ _ _ _ _ b => bracesPs f b + (if f.lang = .c then 1 else 0)
/-- Of a list. -/
def bracesPs (f : Cfg) : List PStmt → Nat
  | [] => 0
  | s :: ss => bracesP f s + bracesPs f ss
end

theorem plainOS_some {x : Option String} (h : plainOS x = true) : ∀ s, x = some s → plainName s = true := by
  rintro s rfl
  exact h

theorem indC_bal (n : Nat) : BalP (indC n) := BalP.plain (ind_plain n)

theorem dec_bal (k : Nat) : BalP (decChars (k + 1) k) := by
  have := printInt_bal (k : Int)
  simpa [printInt, spells, spell, show ¬ ((k : Int) < 0) by omega] using this

theorem defName_bal (k : Nat) : BalP (defName k) := by
  have := (BalP.plain (cs := ['S']) (by decide)).append (intC_eq (k : Int) ▸ printInt_bal (k : Int))
  simpa [defName] using this

theorem mark_count : ∀ ps : List Part, (mark ps).count '}' = (own ps).count '}'
  | [] => rfl
  | .ch c :: ps => by
    simp only [mark, own, List.filterMap_cons, List.count_cons]
    have := mark_count ps
    simp only [own] at this
    rw [this]
  | .it k :: ps => by
    have := mark_count ps
    simp only [own] at this
    simp only [mark, own, List.filterMap_cons, List.count_cons, List.count_append, (dec_bal k).2, this]
    simp

theorem endC_bal (l : Lang) : BalP (endC l) := by cases l <;> exact BalP.plain (by decide)

theorem user_bal {f : Cfg} (hf : Plain f) {k : Nat} {args : List (Option String × Expr)}
    (ha : ∀ a ∈ args, (∀ x, a.1 = some x → plainName x = true) ∧ plainE a.2 = true) {t : List Char}
    (ht : userC f k args = some t) : BalN (bracesP f (.user k args)) t := by
  have hc : BalP (callC f k args) := by
    unfold callC
    have h1 : BalP (callName f k) := by
      unfold callName
      split
      · exact defName_bal k
      · cases hn : f.name k with
        | none => exact defName_bal k
        | some n => exact BalP.plain (hf.1 k n hn)
    have := h1.append ((args_bal f.lang args ha).paren.append (endC_bal f.lang))
    simpa using this
  unfold userC at ht
  rw [bracesP]
  split at ht
  · next h =>
    rw [if_pos h]
    cases ht
    exact hc
  · next h =>
    rw [if_neg h]
    cases hb : f.body k with
    | none =>
      rw [hb] at ht
      cases ht
      exact hc
    | some b =>
      rw [hb] at ht
      obtain ⟨h1, h2, ps, he, hm, hbal⟩ := hf.2 k b hb
      simp only [bodyC, he, body_go f.lang args ps hm _ le_rfl, Option.map_eq_some_iff] at ht
      obtain ⟨r, hr, rfl⟩ := ht
      obtain ⟨h3, h4⟩ := fill_bal ha ps r hr
      have hbr : Bal r := fun st rest => (h3 st rest).trans (hbal st rest)
      refine ⟨h1.append (hbr.append (Bal.append (a := ['\n']) (Bal.plain (by decide)) h2)), ?_⟩
      simp only [List.count_append, List.count_cons, h4, he, mark_count, own]
      simp
      omega

theorem eqnC_bal (l : Lang) {q : Eqn} (h : plainQ q = true) : BalP (eqnC l q) := by
  simp only [plainQ, Bool.and_eq_true] at h
  unfold eqnC
  refine (exprC_bal l _ h.1).append (BalP.append ?_ (exprC_bal l _ h.2))
  split
  · rw [lit_eq]; exact BalP.plain (by decide)
  · split <;> rw [lit_eq] <;> exact BalP.plain (by decide)

theorem eqnsC_bal (l : Lang) : ∀ (qs : List Eqn), qs.all plainQ = true → BalP (eqnsC l qs)
  | [], _ => BalP.plain rfl
  | q :: qs, h => by
    simp only [List.all_cons, Bool.and_eq_true] at h
    rw [eqnsC]
    refine BalP.append ?_ ((eqnC_bal l h.1).paren.append (eqnsC_bal l qs h.2))
    cases l <;> simp only [andC, lit_eq] <;> exact BalP.plain (by decide)

theorem condC_bal (l : Lang) : ∀ (qs : List Eqn), qs.all plainQ = true → BalP (condC l qs)
  | [], _ => BalP.plain rfl
  | q :: qs, h => by
    simp only [List.all_cons, Bool.and_eq_true] at h
    rw [condC]
    exact parenC_bal ((eqnC_bal l h.1).paren.append (eqnsC_bal l qs h.2))

theorem litP {s : String} (h : plainName s = true) : BalP (lit s) := lit_eq s ▸ BalP.plain h

theorem clause_bal {s : String} {v : Option String} {w : String} (hs : s.toList = w.toList ++ ['(']) (hw : plainName w = true)
    (hv : plainOS v = true) : BalP (clauseC s v) := by
  cases v with
  | none => exact BalP.plain rfl
  | some v =>
    have := (BalP.plain hw).append (BalP.paren (BalP.plain (cs := v.toList) hv))
    simp only [clauseC, hs]
    simpa using this

theorem clauses_bal {a : Attr} (h1 : plainOS a.privateVars = true) (h2 : plainOS a.reductionVars = true) :
    BalP (clausesC a) := by
  unfold clausesC
  exact (clause_bal (w := " private") (by decide) (by decide) h1).append ((clause_bal (w := " reduction") (by decide)
    (by decide) h2).append (BalP.plain (by decide)))

theorem set_bal {x : String} {e : Option Expr} (hx : plainName x = true) (he : plainO e = true) : BalP (setC x e) := by
  cases e with
  | none => exact BalP.plain rfl
  | some e =>
    have := (BalP.plain hx).append ((BalP.plain (cs := ['=']) (by decide)).append ((exprC_bal .c e he).append
      (BalP.plain (cs := [';', '\n']) (by decide))))
    simpa [setC] using this

theorem bounds_bal {n : Nat} {l u : String} {lb ub : Option Expr} (hl : plainName l = true) (hu : plainName u = true)
    (h1 : plainO lb = true) (h2 : plainO ub = true) : BalP (boundsC n l u lb ub) := by
  unfold boundsC
  refine (set_bal hl h1).append ?_
  cases ub with
  | none => exact BalP.plain rfl
  | some e => exact (indC_bal n).append (set_bal hu h2)

/-- What `Plain` needs of the fields of a loop. -/
def PlainA (a : Attr) : Prop := plainOS a.privateVars = true ∧ plainOS a.reductionVars = true ∧
  plainOS a.timeVar = true ∧ plainOS a.directive = true

theorem before_bal {n : Nat} {lb ub : Option Expr} {a : Attr} (h1 : plainO lb = true) (h2 : plainO ub = true)
    (h : PlainA a) : BalP (beforeC n lb ub a) := by
  obtain ⟨hp, hr, ht, hd⟩ := h
  have hc := clauses_bal hp hr
  have hi := indC_bal n
  unfold beforeC
  refine BalP.append ?_ (BalP.append ?_ (BalP.append ?_ (BalP.append ?_ ?_)))
  · cases hv : a.timeVar with
    | none => exact BalP.plain rfl
    | some t =>
      rw [hv] at ht
      simp only [timeStart, lit_eq]
      have := (BalP.plain (cs := "IF_TIME".toList) (by decide)).append (BalP.append (BalP.paren ((BalP.plain (cs := t.toList) ht).append
        ((BalP.plain (cs := "_start = cloog_util_rtclock".toList) (by decide)).append (BalP.paren (BalP.plain (cs := []) rfl)))))
        (BalP.plain (cs := ";\n".toList) (by decide)))
      simpa using this
  · split
    · refine (bounds_bal (by decide) (by decide) h1 h2).append ((litP (by decide)).append (BalP.append ?_ (hc.append hi)))
      cases hv : a.directive with
      | none => exact litP (by decide)
      | some d =>
        rw [hv] at hd
        exact BalP.plain hd
    · exact BalP.plain rfl
  · split
    · exact (bounds_bal (by decide) (by decide) h1 h2).append ((litP (by decide)).append (hc.append hi))
    · exact BalP.plain rfl
  · split
    · exact (bounds_bal (by decide) (by decide) h1 h2).append (hi.append ((litP (by decide)).append (hi.append
        ((litP (by decide)).append hi))))
    · exact BalP.plain rfl
  · split
    · refine (bounds_bal (by decide) (by decide) h1 h2).append (hi.append (BalP.append ?_ (BalP.append ?_ hi)))
      · have := (BalP.plain (cs := "polyrt_loop_dist".toList) (by decide)).append ((BalP.paren (BalP.plain
          (cs := "_lb_dist, _ub_dist, nprocs, my_rank, &lbp, &ubp".toList) (by decide))).append
          (BalP.plain (cs := ";\n".toList) (by decide)))
        rw [lit_eq]
        simpa using this
      · split
        · exact (litP (by decide)).append hc
        · exact BalP.plain rfl
    · exact BalP.plain rfl

theorem bound_bal {l : Lang} {a : Attr} {p v : String} {e : Expr} (hp : plainName p = true) (hv : plainName v = true)
    (he : plainE e = true) : BalP (boundC l a p v e) := by
  unfold boundC
  split
  · exact BalP.plain hp
  · split
    · exact BalP.plain hv
    · exact exprC_bal l e he

/-- The header, up to the brace in C. -/
theorem headC_bal {l : Lang} {it : String} {lb ub : Option Expr} {s : Int} {a : Attr} (hi : plainName it = true)
    (h1 : plainO lb = true) (h2 : plainO ub = true) :
    ∃ h, BalP h ∧ headC l it lb ub s a = h ++ (match l with | .c => "{\n".toList | .fortran => "\n".toList) := by
  have hid : BalP it.toList := BalP.plain hi
  have hint : BalP (intC s) := intC_eq s ▸ printInt_bal s
  have b1 : BalP (initC l it a lb) := by
    cases lb with
    | none => exact BalP.plain rfl
    | some e =>
      have := hid.append ((BalP.plain (cs := ['=']) (by decide)).append (bound_bal (l := l) (a := a) (p := "lbp") (v := "lbv")
        (by decide) (by decide) h1))
      simpa [initC] using this
  have b2 : BalP (testC l it a ub) := by
    cases ub with
    | none => exact BalP.plain rfl
    | some e =>
      rw [testC]
      refine BalP.append ?_ (bound_bal (by decide) (by decide) h2)
      split
      · exact BalP.plain rfl
      · exact hid.append (litP (by decide))
  cases l with
  | c =>
    obtain ⟨st, b3, e3⟩ : ∃ st, BalP st ∧ stepC .c it s = st ++ ") {\n".toList := by
      unfold stepC
      dsimp only
      split
      · refine ⟨';' :: (it.toList ++ (lit "+=" ++ intC s)), ?_, by simp [lit_eq]⟩
        have := (BalP.plain (cs := [';']) (by decide)).append (hid.append ((litP (s := "+=") (by decide)).append hint))
        simpa using this
      · refine ⟨';' :: (it.toList ++ "++".toList), ?_, by simp [lit_eq]⟩
        have := (BalP.plain (cs := [';']) (by decide)).append (hid.append (BalP.plain (cs := "++".toList) (by decide)))
        simpa using this
    have := (BalP.plain (cs := "for ".toList) (by decide)).append ((BalP.paren (b1.append ((BalP.plain (cs := [';']) (by decide)).append
      (b2.append b3)))).append (BalP.plain (cs := " ".toList) (by decide)))
    refine ⟨_, this, ?_⟩
    simp only [headC, e3, forC]
    simp [lit_eq]
  | fortran =>
    have b3 : BalP (if 1 < s then intC s else []) := by
      split
      · exact hint
      · exact BalP.plain rfl
    refine ⟨_, (litP (s := "DO ") (by decide)).append (b1.append ((litP (s := ", ") (by decide)).append (b2.append b3))), ?_⟩
    simp only [headC, stepC, forC]
    simp

theorem timeEnd_bal {a : Attr} (h : plainOS a.timeVar = true) :
    BalP (timeEnd a.timeVar) := by
  cases hv : a.timeVar with
  | none => exact BalP.plain rfl
  | some t =>
    rw [hv] at h
    have ht : BalP t.toList := BalP.plain h
    simp only [timeEnd, lit_eq]
    have := (BalP.plain (cs := "IF_TIME".toList) (by decide)).append (BalP.append (BalP.paren (ht.append
      ((BalP.append (BalP.plain (cs := " += cloog_util_rtclock".toList) (by decide)) (BalP.append (BalP.paren (BalP.plain (cs := []) rfl))
        (BalP.plain (cs := " - ".toList) (by decide)))).append (ht.append (BalP.plain (cs := "_start".toList) (by decide))))))
      (BalP.plain (cs := ";\n".toList) (by decide)))
    simpa using this

/-- The parts of a compound statement in C. -/
theorem brace_bal {n k : Nat} {h t e : List Char} (hh : BalP h) (ht : BalN k t) (he : BalP e) :
    BalN (k + 1) (indC n ++ (h ++ ("{\n".toList ++ (t ++ (indC n ++ ("}\n".toList ++ e)))))) := by
  have := (indC_bal n).n.append (hh.n.append ((body_bal (n := n) ht).append he.n))
  have e1 : 0 + (0 + (k + 1 + 0)) = k + 1 := by omega
  rw [e1] at this
  simpa [indC] using this

mutual
theorem stmtC_bal {f : Cfg} (hf : Plain f) : ∀ (s : PStmt) (n : Nat) (last : Bool) (t : List Char), plainP s = true →
    stmtC f n last s = some t → BalN (bracesP f s) t
  | .root, n, last, t, _, ht => by
    simp only [stmtC, Option.some.injEq] at ht
    subst ht
    split
    · exact ((indC_bal n).append (litP (by decide))).n
    · exact BalP.plain rfl
  | .ass x e, n, last, t, h, ht => by
    simp only [plainP, Bool.and_eq_true] at h
    simp only [stmtC, Option.some.injEq] at ht
    subst ht
    exact ((indC_bal n).append ((args_bal.assC_bal f.lang (x, e) ⟨plainOS_some h.1, h.2⟩).append (endC_bal f.lang))).n
  | .user k args, n, last, t, h, ht => by
    simp only [plainP, List.all_eq_true, Bool.and_eq_true] at h
    simp only [stmtC, Option.map_eq_some_iff] at ht
    obtain ⟨r, hr, rfl⟩ := ht
    have := (indC_bal n).n.append (user_bal hf (fun a ha => ⟨plainOS_some (h a ha).1, (h a ha).2⟩) hr)
    rwa [Nat.zero_add] at this
  | .block b, n, last, t, h, ht => by
    simp only [plainP] at h
    simp only [stmtC, Option.map_eq_some_iff] at ht
    obtain ⟨r, hr, rfl⟩ := ht
    have := brace_bal (n := n) (BalP.plain (cs := []) rfl) (stmtsC_bal hf b _ r h hr) (BalP.plain (cs := []) rfl)
    simp only [lit_eq, bracesP]
    simpa using this
  | .guard qs b, n, last, t, h, ht => by
    simp only [plainP, Bool.and_eq_true] at h
    simp only [stmtC, Option.map_eq_some_iff] at ht
    obtain ⟨r, hr, rfl⟩ := ht
    have hb := stmtsC_bal hf b _ r h.2 hr
    have hq := condC_bal f.lang qs h.1
    rw [bracesP]
    cases hl : f.lang with
    | c =>
      rw [hl] at hq
      have := brace_bal (n := n) ((BalP.plain (cs := "if ".toList) (by decide)).append (hq.append
        (BalP.plain (cs := " ".toList) (by decide)))) hb (BalP.plain (cs := []) rfl)
      simp only [ifC, lit_eq, if_true]
      simpa using this
    | fortran =>
      rw [hl] at hq
      have := (indC_bal n).n.append ((litP (s := "IF ") (by decide)).n.append (hq.n.append ((litP (s := " THEN\n") (by decide)).n.append
        (hb.append ((indC_bal n).n.append (litP (s := "END IF\n") (by decide)).n)))))
      simp only [ifC]
      simpa using this
  | .for_ it lb ub s a b, n, last, t, h, ht => by
    simp only [plainP, Bool.and_eq_true] at h
    obtain ⟨⟨⟨⟨⟨⟨⟨h1, h2⟩, h3⟩, h4⟩, h5⟩, h6⟩, h7⟩, h8⟩ := h
    simp only [stmtC, Option.map_eq_some_iff] at ht
    obtain ⟨r, hr, rfl⟩ := ht
    have hb := stmtsC_bal hf b _ r h8 hr
    obtain ⟨hd, hh, he⟩ := headC_bal (l := f.lang) (s := s) (a := a) h1 h2 h3
    have hbe := before_bal (n := n) h2 h3 ⟨h4, h5, h6, h7⟩
    have hte := timeEnd_bal h6
    rw [bracesP, he]
    cases hl : f.lang with
    | c =>
      have := brace_bal (n := n) (hbe.append hh) hb hte
      simp only [afterC, forC, if_true, lit_eq] at this ⊢
      simpa using this
    | fortran =>
      have := (indC_bal n).n.append (hh.n.append ((BalP.plain (cs := "\n".toList) (by decide)).n.append (hb.append ((indC_bal n).n.append
        (litP (s := "END DO\n") (by decide)).n))))
      simp only [afterC, forC]
      simpa using this
theorem stmtsC_bal {f : Cfg} (hf : Plain f) : ∀ (ss : List PStmt) (n : Nat) (t : List Char), plainPs ss = true →
    stmtsC f n ss = some t → BalN (bracesPs f ss) t
  | [], n, t, _, ht => by
    cases ht
    exact BalP.plain rfl
  | s :: ss, n, t, h, ht => by
    simp only [plainPs, Bool.and_eq_true] at h
    rw [stmtsC] at ht
    cases h1 : stmtC f n ss.isEmpty s with
    | none => rw [h1] at ht; simp [cat] at ht
    | some a =>
      cases h2 : stmtsC f n ss with
      | none => rw [h1, h2] at ht; simp [cat] at ht
      | some b =>
        rw [h1, h2] at ht
        cases ht
        exact (stmtC_bal hf s n _ a h.1 h1).append (stmtsC_bal hf ss n b h.2 h2)
end

/-- Whatever the clast, the language and the options, the brackets of the printed text are closed in the
right order.  The closing braces are those of blocks, in C those of loops and guards, and those of OpenScop
bodies. -/
theorem C36_balanced (f : Cfg) (hf : Plain f) (n : Nat) (ss : List PStmt) (h : plainPs ss = true) (t : List Char)
    (ht : pprint f n ss = some t) : closes [] t = true ∧ t.count '}' = bracesPs f ss := by
  unfold pprint at ht
  split at ht
  · exact absurd ht (by simp)
  · obtain ⟨h1, h2⟩ := stmtsC_bal hf ss n t h ht
    refine ⟨?_, h2⟩
    have := h1 [] []
    rw [List.append_nil] at this
    rw [this]
    rfl

/-! ## C36: lines of Fortran -/

/-- The words that open a construct. -/
inductive Kw | do_ | if_
  deriving DecidableEq

/-- What a line (without leading blanks) opens. -/
def opens (l : List Char) : Option Kw :=
  if ['D', 'O', ' '].isPrefixOf l then some .do_ else if ['I', 'F', ' '].isPrefixOf l then some .if_ else none

/-- What a line closes. -/
def shuts (l : List Char) : Option Kw :=
  if l = ['E', 'N', 'D', ' ', 'D', 'O'] then some .do_ else if l = ['E', 'N', 'D', ' ', 'I', 'F'] then some .if_ else none

/-- Are all constructs closed by their own end, in the right order? -/
def nested : List Kw → List (List Char) → Bool
  | st, [] => st.isEmpty
  | st, l :: ls =>
    match opens (l.dropWhile (· == ' ')), shuts (l.dropWhile (· == ' ')) with
    | some k, _ => nested (k :: st) ls
    | none, none => nested st ls
    | none, some k =>
      match st with
      | [] => false
      | k' :: st => if k' = k then nested st ls else false

/-- The lines of a text. -/
def linesOf : List Char → List Char → List (List Char)
  | acc, [] => [acc]
  | acc, c :: cs => if c = '\n' then acc :: linesOf [] cs else linesOf (acc ++ [c]) cs

theorem linesOf_line {a : List Char} (h : '\n' ∉ a) : ∀ acc rest, linesOf acc (a ++ '\n' :: rest) = (acc ++ a) :: linesOf [] rest := by
  induction a with
  | nil => intro acc rest; simp [linesOf]
  | cons c a ih =>
    intro acc rest
    simp only [List.mem_cons, not_or] at h
    rw [List.cons_append, linesOf, if_neg (Ne.symm h.1), ih h.2]
    simp

/-- Complete lines that leave nothing open. -/
def Nst (cs : List Char) : Prop := ∀ st rest, nested st (linesOf [] (cs ++ rest)) = nested st (linesOf [] rest)

theorem Nst.nil : Nst [] := fun _ _ => rfl

theorem Nst.append {a b : List Char} (ha : Nst a) (hb : Nst b) : Nst (a ++ b) := by
  intro st rest
  rw [List.append_assoc, ha, hb]

theorem drop_ind (n : Nat) (c : Char) (cs : List Char) (hc : c ≠ ' ') :
    (indC n ++ c :: cs).dropWhile (· == ' ') = c :: cs := by
  induction n with
  | zero =>
    simp only [indC, List.replicate_zero, List.nil_append]
    rw [List.dropWhile_cons_of_neg (by simpa using hc)]
  | succ n ih =>
    simp only [indC, List.replicate_succ, List.cons_append] at ih ⊢
    rw [List.dropWhile_cons_of_pos (by simp), ih]

theorem ind_nl (n : Nat) : '\n' ∉ indC n := by
  intro h
  exact absurd (List.eq_of_mem_replicate h) (by decide)

/-- A line that neither opens nor closes. -/
theorem Nst.line {n : Nat} {c : Char} {cs : List Char} (hc : c ≠ ' ') (h : '\n' ∉ c :: cs) (ho : opens (c :: cs) = none)
    (hs : shuts (c :: cs) = none) : Nst (indC n ++ (c :: cs) ++ ['\n']) := by
  intro st rest
  rw [List.append_assoc, List.singleton_append, linesOf_line (by
    rw [List.mem_append, not_or]
    exact ⟨ind_nl n, h⟩)]
  simp only [List.nil_append]
  rw [nested, drop_ind n c cs hc, ho, hs]

/-- A construct. -/
theorem Nst.wrap {n : Nat} {k : Kw} {a b e : List Char} (ha : '\n' ∉ a) (ha' : ∀ l, opens (a ++ l) = some k)
    (ha'' : ∃ c cs, a = c :: cs ∧ c ≠ ' ') (hb : Nst b) (he : shuts e = some k) (tl : List Char) (ht : '\n' ∉ tl) :
    Nst (indC n ++ (a ++ (tl ++ ('\n' :: (b ++ (indC n ++ (e ++ ['\n']))))))) := by
  intro st rest
  have e1 : indC n ++ (a ++ (tl ++ ('\n' :: (b ++ (indC n ++ (e ++ ['\n'])))))) ++ rest =
      (indC n ++ (a ++ tl)) ++ '\n' :: (b ++ ((indC n ++ e) ++ '\n' :: rest)) := by simp
  obtain ⟨c, cs, rfl, hc⟩ := ha''
  have hne : '\n' ∉ e ∧ ∃ d ds, e = d :: ds ∧ d ≠ ' ' ∧ opens e = none := by
    unfold shuts at he
    split at he
    · next h => subst h; exact ⟨by decide, _, _, rfl, by decide, by decide⟩
    · split at he
      · next h => subst h; exact ⟨by decide, _, _, rfl, by decide, by decide⟩
      · exact absurd he (by simp)
  obtain ⟨hn, d, ds, rfl, hd, ho⟩ := hne
  rw [e1, linesOf_line (by
    simp only [List.mem_append, not_or]
    exact ⟨ind_nl n, ha, ht⟩)]
  simp only [List.nil_append]
  rw [nested, List.cons_append, drop_ind n c _ hc, ← List.cons_append, ha']
  simp only
  rw [hb, linesOf_line (by
    rw [List.mem_append, not_or]
    exact ⟨ind_nl n, hn⟩)]
  simp only [List.nil_append]
  rw [nested, drop_ind n d ds hd, ho, he]
  simp

/-- A property of all characters of names and of the printer's own passes to the text of expressions. -/
def allE (P : Char → Bool) : Expr → Bool
  | .name s => s.toList.all P
  | .cst _ => true
  | .term _ v => allE P v
  | .bin _ l _ => allE P l
  | .red _ es => allEs P es
where
  /-- The same for lists. -/
  allEs (P : Char → Bool) : List Expr → Bool
  | [] => true
  | e :: es => allE P e && allEs P es

/-- The characters the printer itself puts into expressions, besides digits. -/
def alphabet : List Char := "FLOOR(REAL()/REAL())CEILING(MOD(, )floord(,)ceild(%MAX(MIN(max(min(+-*".toList

section
variable {P : Char → Bool} (hd : ∀ c : Char, c.isDigit = true → P c = true) (ha : ∀ c ∈ alphabet, P c = true)
include hd ha

theorem all_lit {s : String} (h : ∀ c ∈ s.toList, c ∈ alphabet) : (lit s).all P = true := by
  rw [lit_eq, List.all_eq_true]
  exact fun c hc => ha c (h c hc)

theorem all_chars {s : List Char} (h : ∀ c ∈ s, c ∈ alphabet) : s.all P = true := by
  rw [List.all_eq_true]
  exact fun c hc => ha c (h c hc)

theorem all_int (n : Int) : (intC n).all P = true := by
  have hdec : ∀ k : Nat, (decChars (k + 1) k).all P = true := fun k => by
    rw [List.all_eq_true]
    exact fun c hc => hd c (((dec_props (k + 1) k (by omega)).1 c hc).1)
  unfold intC
  split
  · rw [List.all_cons, hdec, Bool.and_true]
    exact ha _ (by decide)
  · exact hdec _

theorem all_bin (l : Lang) (t : BinType) (g : Bool) : (binC l t g).1.all P = true ∧ (binC l t g).2.1.all P = true ∧
    (binC l t g).2.2.all P = true := by
  have h1 := fun (s : String) (h : ∀ c ∈ s.toList, c ∈ alphabet) => all_lit hd ha h
  have h2 := fun (s : List Char) (h : ∀ c ∈ s, c ∈ alphabet) => all_chars hd ha h
  cases l <;> cases t <;> simp only [binC]
  · exact ⟨h1 _ (by decide), h1 _ (by decide), h1 _ (by decide)⟩
  · exact ⟨h1 _ (by decide), h1 _ (by decide), h1 _ (by decide)⟩
  · cases g <;> exact ⟨h2 _ (by decide), h2 _ (by decide), rfl⟩
  · cases g <;> exact ⟨h2 _ (by decide), h2 _ (by decide), rfl⟩
  · exact ⟨h1 _ (by decide), h1 _ (by decide), h1 _ (by decide)⟩
  · exact ⟨h1 _ (by decide), h1 _ (by decide), h1 _ (by decide)⟩
  · cases g <;> exact ⟨h2 _ (by decide), h2 _ (by decide), rfl⟩
  · exact ⟨h1 _ (by decide), h1 _ (by decide), h1 _ (by decide)⟩

theorem all_mm (l : Lang) (t : RedType) : (mmC l t).all P = true := by
  cases l <;> cases t <;> simp only [mmC] <;> exact all_lit hd ha (by decide)

theorem all_mmOpen (l : Lang) (t : RedType) (n : Nat) : (mmOpen l t n).all P = true := by
  unfold mmOpen
  have := all_mm hd ha l t
  cases l with
  | fortran =>
    dsimp only
    split
    · rfl
    · exact this
  | c =>
    dsimp only
    rw [List.all_eq_true]
    intro c hc
    obtain ⟨w, hw, hcw⟩ := List.mem_flatten.1 hc
    rw [List.eq_of_mem_replicate hw] at hcw
    exact List.all_eq_true.1 this c hcw

theorem all_paren {g : Bool} {a : List Char} (h : a.all P = true) : (parenC g a).all P = true := by
  unfold parenC
  split
  · rw [List.all_cons, List.all_append, h]
    simp [ha '(' (by decide), ha ')' (by decide)]
  · exact h

mutual
theorem all_expr (l : Lang) : ∀ e, allE P e = true → (exprC l e).all P = true
  | .name s, h => by simpa [exprC, allE] using h
  | .cst c, _ => by rw [exprC]; exact all_int hd ha c
  | .term c v, h => by
    rw [exprC, List.all_append, all_paren hd ha (all_expr l v (by simpa [allE] using h)), Bool.and_true]
    unfold coefC
    split
    · rfl
    · split
      · exact all_chars hd ha (by decide)
      · rw [List.all_append, all_int hd ha]
        simp [ha '*' (by decide)]
  | .bin t a r, h => by
    obtain ⟨h1, h2, h3⟩ := all_bin hd ha l t (group a)
    rw [exprC]
    simp only [List.all_append, h1, h2, h3, all_int hd ha, all_expr l a (by simpa [allE] using h), Bool.and_true]
  | .red t [], _ => by rw [exprC]; rfl
  | .red .sum (e :: es), h => by
    have h' : allE P e = true ∧ allE.allEs P es = true := by simpa [allE, allE.allEs] using h
    rw [exprC, List.all_append, all_expr l e h'.1, all_sum l es h'.2]
    rfl
  | .red .min (e :: es), h => by
    have h' : allE P e = true ∧ allE.allEs P es = true := by simpa [allE, allE.allEs] using h
    rw [exprC]; swap; · simp
    simp only [List.all_append, all_mmOpen hd ha, all_expr l e h'.1, all_ops l es h'.2, Bool.true_and, mmClose]
    cases l <;> dsimp only <;> (try split) <;> first | rfl | exact all_chars hd ha (by decide)
  | .red .max (e :: es), h => by
    have h' : allE P e = true ∧ allE.allEs P es = true := by simpa [allE, allE.allEs] using h
    rw [exprC]; swap; · simp
    simp only [List.all_append, all_mmOpen hd ha, all_expr l e h'.1, all_ops l es h'.2, Bool.true_and, mmClose]
    cases l <;> dsimp only <;> (try split) <;> first | rfl | exact all_chars hd ha (by decide)
theorem all_sum (l : Lang) : ∀ es, allE.allEs P es = true → (sumC l es).all P = true
  | [], _ => rfl
  | e :: es, h => by
    have h' : allE P e = true ∧ allE.allEs P es = true := by simpa [allE.allEs] using h
    rw [sumC, List.all_append, List.all_append, all_expr l e h'.1, all_sum l es h'.2]
    split
    · simp [ha '+' (by decide)]
    · rfl
theorem all_ops (l : Lang) : ∀ es, allE.allEs P es = true → (opsC l es).all P = true
  | [], _ => rfl
  | e :: es, h => by
    have h' : allE P e = true ∧ allE.allEs P es = true := by simpa [allE.allEs] using h
    rw [opsC, List.all_cons, List.all_append, List.all_append, all_expr l e h'.1, all_ops l es h'.2, ha ',' (by decide)]
    cases l
    · simp [mmAfter, ha ')' (by decide)]
    · rfl
end
end

/-- Not a new line. -/
def noNl (c : Char) : Bool := c != '\n'

theorem noNl_expr {l : Lang} {e : Expr} (h : allE noNl e = true) : '\n' ∉ exprC l e := by
  have := all_expr (P := noNl) (fun c hc => by
    unfold noNl
    rw [bne_iff_ne]
    rintro rfl
    revert hc
    decide) (by decide) l e h
  rw [List.all_eq_true] at this
  intro hm
  exact absurd (this _ hm) (by decide)

/-- A name without blanks. -/
def word (s : String) : Bool := s.toList.all fun c => c != '\n' && c != ' '

theorem word_nl {s : String} (h : word s = true) : '\n' ∉ s.toList ∧ ' ' ∉ s.toList := by
  simp only [word, List.all_eq_true, Bool.and_eq_true, bne_iff_ne] at h
  exact ⟨fun hm => (h _ hm).1 rfl, fun hm => (h _ hm).2 rfl⟩

/-- No new line in an optional expression. -/
def allO : Option Expr → Bool
  | some e => allE noNl e
  | none => true

mutual
/-- The names of a statement are words, no line starts with `DO` or `IF` by accident, assignments have a
left-hand side. -/
def wordP : PStmt → Bool
  | .root => true
  | .ass (some x) e => word x && decide (x.toList ≠ ['D', 'O']) && decide (x.toList ≠ ['I', 'F']) && allE noNl e
  | .ass none _ => false
  | .user _ args => args.all fun a => (match a.1 with | some x => word x | none => true) && allE noNl a.2
  | .block b => wordPs b
  | .guard qs b => (qs.all fun (q : Eqn) => allE noNl q.lhs && allE noNl q.rhs) && wordPs b
  | .for_ it lb ub _ _ b => word it && allO lb && allO ub && wordPs b
/-- All of them. -/
def wordPs : List PStmt → Bool
  | [] => true
  | s :: ss => wordP s && wordPs ss
end

theorem opens_call {a r : List Char} (ha : ' ' ∉ a) : opens (a ++ '(' :: r) = none ∧ shuts (a ++ '(' :: r) = none := by
  constructor
  · unfold opens
    match a with
    | [] => simp [List.isPrefixOf]
    | [x] => simp [List.isPrefixOf]
    | [x, y] => simp [List.isPrefixOf]
    | x :: y :: z :: a =>
      simp only [List.mem_cons, not_or] at ha
      have hz : (' ' == z) = false := by simpa using ha.2.2.1
      simp [List.isPrefixOf, hz]
  · have h1 : '(' ∈ a ++ '(' :: r := by simp
    unfold shuts
    rw [if_neg, if_neg]
    · intro h
      rw [h] at h1
      revert h1
      decide
    · intro h
      rw [h] at h1
      revert h1
      decide

theorem opens_ass {a r : List Char} (ha : ' ' ∉ a) (h1 : a ≠ ['D', 'O']) (h2 : a ≠ ['I', 'F']) :
    opens (a ++ ' ' :: '=' :: r) = none ∧ shuts (a ++ ' ' :: '=' :: r) = none := by
  constructor
  · unfold opens
    match a with
    | [] => simp [List.isPrefixOf]
    | [x] => simp [List.isPrefixOf]
    | [x, y] =>
      have e1 : ∀ u v : Char, [u, v, ' '].isPrefixOf ([x, y] ++ ' ' :: '=' :: r) = true → [x, y] = [u, v] := by
        intro u v h
        simp [List.isPrefixOf] at h
        rw [h.1, h.2]
      rw [if_neg (fun h => h1 (e1 _ _ h)), if_neg (fun h => h2 (e1 _ _ h))]
    | x :: y :: z :: a =>
      simp only [List.mem_cons, not_or] at ha
      have hz : (' ' == z) = false := by simpa using ha.2.2.1
      simp [List.isPrefixOf, hz]
  · have h1 : '=' ∈ a ++ ' ' :: '=' :: r := by simp
    unfold shuts
    rw [if_neg, if_neg]
    · intro h
      rw [h] at h1
      revert h1
      decide
    · intro h
      rw [h] at h1
      revert h1
      decide

theorem noNl_parenC {g : Bool} {a : List Char} (h : '\n' ∉ a) : '\n' ∉ parenC g a := by
  unfold parenC
  split
  · simp [h]
  · exact h

theorem noNl_ass {l : Lang} {a : Option String × Expr}
    (h : (match a.1 with | some x => word x | none => true) = true ∧ allE noNl a.2 = true) : '\n' ∉ assC l a := by
  obtain ⟨x, e⟩ := a
  have := noNl_expr (l := l) h.2
  cases x with
  | none => exact this
  | some x =>
    have := (word_nl h.1).1
    simp_all [assC, lit_eq]

theorem noNl_args {l : Lang} : ∀ (as : List (Option String × Expr)),
    (∀ a ∈ as, (match a.1 with | some x => word x | none => true) = true ∧ allE noNl a.2 = true) → '\n' ∉ argsC l as
  | [], _ => by simp [argsC]
  | [a], h => by
    rw [argsC]
    exact noNl_parenC (noNl_ass (h a (by simp)))
  | a :: b :: as, h => by
    rw [argsC]; swap; · simp
    have h1 := noNl_parenC (g := saferA a) (noNl_ass (l := l) (h a (by simp)))
    have h2 := noNl_args (l := l) (b :: as) (fun x hx => h x (by simp [hx]))
    simp [h1, h2]

theorem noNl_cond {l : Lang} : ∀ (qs : List Eqn),
    (qs.all fun (q : Eqn) => allE noNl q.lhs && allE noNl q.rhs) = true → '\n' ∉ condC l qs := by
  have hq : ∀ q : Eqn, allE noNl q.lhs = true → allE noNl q.rhs = true → '\n' ∉ eqnC l q := by
    intro q h1 h2
    have h3 := noNl_expr (l := l) h1
    have h4 := noNl_expr (l := l) h2
    unfold eqnC
    simp only [List.mem_append, not_or, lit_eq]
    refine ⟨h3, ?_, h4⟩
    split
    · decide
    · split <;> decide
  have hqs : ∀ qs : List Eqn, (qs.all fun (q : Eqn) => allE noNl q.lhs && allE noNl q.rhs) = true → '\n' ∉ eqnsC l qs := by
    intro qs
    induction qs with
    | nil => intro _; simp [eqnsC]
    | cons q qs ih =>
      intro h
      simp only [List.all_cons, Bool.and_eq_true] at h
      have h1 := hq q h.1.1 h.1.2
      have h2 := ih (by simpa using h.2)
      have h3 : '\n' ∉ andC l := by cases l <;> simp [andC, lit_eq]
      simp [eqnsC, h1, h2, h3]
  intro qs h
  cases qs with
  | nil => simp [condC]
  | cons q qs =>
    simp only [List.all_cons, Bool.and_eq_true] at h
    rw [condC]
    refine noNl_parenC ?_
    have h1 := hq q h.1.1 h.1.2
    have h2 := hqs qs (by simpa using h.2)
    simp [h1, h2]

theorem noNl_int (n : Int) : '\n' ∉ intC n := by
  have := noNl_expr (l := .c) (e := .cst n) rfl
  rwa [exprC] at this

theorem noNl_bound {l : Lang} {a : Attr} {p v : String} {e : Expr} (hp : '\n' ∉ p.toList) (hv : '\n' ∉ v.toList)
    (he : allE noNl e = true) : '\n' ∉ boundC l a p v e := by
  unfold boundC
  split
  · exact hp
  · split
    · exact hv
    · exact noNl_expr he

mutual
theorem stmtC_nst {f : Cfg} (hl : f.lang = .fortran) (hb : f.callable = true ∨ ∀ k, f.body k = none)
    (hn : ∀ k n, f.name k = some n → word n = true) : ∀ (s : PStmt) (n : Nat) (last : Bool) (t : List Char),
    wordP s = true → stmtC f n last s = some t → Nst t
  | .root, n, last, t, _, ht => by
    simp only [stmtC, Option.some.injEq] at ht
    subst ht
    split
    · have := Nst.line (n := n) (c := 'S') (cs := ['0']) (by decide) (by decide) (by decide) (by decide)
      rw [lit_eq]
      simpa using this
    · exact .nil
  | .ass (some x) e, n, last, t, h, ht => by
    simp only [wordP, Bool.and_eq_true, decide_eq_true_eq] at h
    obtain ⟨⟨⟨h1, h2⟩, h3⟩, h4⟩ := h
    simp only [stmtC, Option.some.injEq] at ht
    subst ht
    obtain ⟨hw, hs⟩ := word_nl h1
    obtain ⟨ho, hsh⟩ := opens_ass (r := ' ' :: exprC f.lang e) hs h2 h3
    have he := noNl_expr (l := f.lang) h4
    have hne : (assC f.lang (some x, e)) = x.toList ++ ' ' :: '=' :: ' ' :: exprC f.lang e := by simp [assC, lit_eq]
    rw [hl] at *
    simp only [endC, hne]
    cases hx : x.toList with
    | nil =>
      intro st rest
      have e1 : (indC n ++ (([] : List Char) ++ ' ' :: '=' :: ' ' :: exprC .fortran e ++ ['\n'])) =
        indC (n + 1) ++ ('=' :: ' ' :: exprC .fortran e) ++ ['\n'] := by
        simp only [indC, List.replicate_succ', List.nil_append, List.append_assoc, List.cons_append]
      rw [e1]
      refine Nst.line (by decide) (by simp [he]) ?_ ?_ st rest
      · simp [opens, List.isPrefixOf]
      · simp [shuts]
    | cons c cs =>
      rw [hx] at ho hsh hw hs
      have := Nst.line (n := n) (c := c) (cs := cs ++ ' ' :: '=' :: ' ' :: exprC .fortran e)
        (by simp only [List.mem_cons, not_or] at hs; exact fun h => hs.1 h.symm)
        (by
          simp only [List.mem_cons, not_or, List.mem_append] at hw ⊢
          exact ⟨hw.1, hw.2, by decide, by decide, by decide, he⟩) ho hsh
      simpa using this
  | .ass none e, _, _, _, h, _ => by simp [wordP] at h
  | .user k args, n, last, t, h, ht => by
    simp only [wordP, List.all_eq_true, Bool.and_eq_true] at h
    have hu : userC f k args = some (callC f k args) := by
      unfold userC
      rcases hb with h | h
      · rw [if_pos h]
      · rw [h k]; simp
    simp only [stmtC, hu, Option.map_some, Option.some.injEq] at ht
    subst ht
    have ha := noNl_args (l := f.lang) args h
    have hname : '\n' ∉ callName f k ∧ ' ' ∉ callName f k := by
      have hdef : '\n' ∉ defName k ∧ ' ' ∉ defName k := by
        have h1 : ∀ c ∈ intC (k : Int), c.isDigit = true := by
          unfold intC
          rw [if_neg (by omega)]
          exact fun c hc => ((dec_props _ _ (by omega)).1 c hc).1
        constructor <;>
        · intro hm
          simp only [defName, List.mem_cons] at hm
          rcases hm with h | h
          · exact absurd h (by decide)
          · exact absurd (h1 _ h) (by decide)
      unfold callName
      split
      · exact hdef
      · cases hk : f.name k with
        | none => exact hdef
        | some w => exact word_nl (hn k w hk)
    obtain ⟨ho, hsh⟩ := opens_call (r := argsC f.lang args ++ [')']) hname.2
    have e1 : indC n ++ callC f k args = indC n ++ (callName f k ++ '(' :: (argsC f.lang args ++ [')'])) ++ ['\n'] := by
      simp [callC, hl, endC]
    rw [e1]
    cases hx : callName f k with
    | nil =>
      rw [hx] at ho hsh
      exact Nst.line (by decide) (by simp [ha]) ho hsh
    | cons c cs =>
      rw [hx] at ho hsh hname
      refine Nst.line (by
        have := hname.2
        simp only [List.mem_cons, not_or] at this
        exact fun h => this.1 h.symm) ?_ ho hsh
      have := hname.1
      simp only [List.mem_cons, not_or] at this
      simp [this.1, this.2, ha]
  | .block b, n, last, t, h, ht => by
    simp only [wordP] at h
    simp only [stmtC, Option.map_eq_some_iff] at ht
    obtain ⟨r, hr, rfl⟩ := ht
    have h1 := Nst.line (n := n) (c := '{') (cs := []) (by decide) (by decide) (by decide) (by decide)
    have h2 := Nst.line (n := n) (c := '}') (cs := []) (by decide) (by decide) (by decide) (by decide)
    have := h1.append ((stmtsC_nst hl hb hn b _ r h hr).append h2)
    simp only [lit_eq]
    simpa using this
  | .guard qs b, n, last, t, h, ht => by
    simp only [wordP, Bool.and_eq_true] at h
    simp only [stmtC, Option.map_eq_some_iff] at ht
    obtain ⟨r, hr, rfl⟩ := ht
    have := Nst.wrap (n := n) (k := .if_) (a := ['I', 'F', ' ']) (e := ['E', 'N', 'D', ' ', 'I', 'F']) (by decide)
      (fun l => by simp [opens, List.isPrefixOf]) ⟨_, _, rfl, by decide⟩ (stmtsC_nst hl hb hn b _ r h.2 hr) (by decide)
      (condC .fortran qs ++ [' ', 'T', 'H', 'E', 'N']) (by
        simp only [List.mem_append, not_or]
        exact ⟨noNl_cond qs h.1, by decide⟩)
    simp only [hl, ifC, lit_eq]
    simpa using this
  | .for_ it lb ub s a b, n, last, t, h, ht => by
    simp only [wordP, Bool.and_eq_true] at h
    obtain ⟨⟨⟨h1, h2⟩, h3⟩, h4⟩ := h
    simp only [stmtC, Option.map_eq_some_iff] at ht
    obtain ⟨r, hr, rfl⟩ := ht
    have hi := (word_nl h1).1
    have b1 : '\n' ∉ initC .fortran it a lb := by
      cases lb with
      | none => simp [initC]
      | some e =>
        have := noNl_bound (l := .fortran) (a := a) (p := "lbp") (v := "lbv") (e := e) (by decide) (by decide) h2
        simp [initC, hi, this]
    have b2 : '\n' ∉ testC .fortran it a ub := by
      cases ub with
      | none => simp [testC]
      | some e =>
        have := noNl_bound (l := .fortran) (a := a) (p := "ubp") (v := "ubv") (e := e) (by decide) (by decide) h3
        simp [testC, this]
    have b3 : '\n' ∉ (if 1 < s then intC s else []) := by
      split
      · exact noNl_int s
      · simp
    have := Nst.wrap (n := n) (k := .do_) (a := ['D', 'O', ' ']) (e := ['E', 'N', 'D', ' ', 'D', 'O']) (by decide)
      (fun l => by simp [opens, List.isPrefixOf]) ⟨_, _, rfl, by decide⟩ (stmtsC_nst hl hb hn b _ r h4 hr) (by decide)
      (initC .fortran it a lb ++ (',' :: ' ' :: (testC .fortran it a ub ++ (if 1 < s then intC s else [])))) (by
        simp only [List.mem_append, not_or, List.mem_cons]
        exact ⟨b1, by decide, by decide, b2, b3⟩)
    simp only [hl, headC, afterC, forC, lit_eq, stepC]
    simpa using this
theorem stmtsC_nst {f : Cfg} (hl : f.lang = .fortran) (hb : f.callable = true ∨ ∀ k, f.body k = none)
    (hn : ∀ k n, f.name k = some n → word n = true) : ∀ (ss : List PStmt) (n : Nat) (t : List Char),
    wordPs ss = true → stmtsC f n ss = some t → Nst t
  | [], n, t, _, ht => by
    cases ht
    exact .nil
  | s :: ss, n, t, h, ht => by
    simp only [wordPs, Bool.and_eq_true] at h
    rw [stmtsC] at ht
    cases h1 : stmtC f n ss.isEmpty s with
    | none => rw [h1] at ht; simp [cat] at ht
    | some a =>
      cases h2 : stmtsC f n ss with
      | none => rw [h1, h2] at ht; simp [cat] at ht
      | some b =>
        rw [h1, h2] at ht
        cases ht
        exact (stmtC_nst hl hb hn s n _ a h.1 h1).append (stmtsC_nst hl hb hn ss n b h.2 h2)
end

/-- In Fortran every `DO` and `IF` line is closed by its own `END DO` or `END IF` line, in the right order;
there are no other such lines.  For names without blanks, and without OpenScop bodies. -/
theorem C36_fortran (f : Cfg) (hl : f.lang = .fortran) (hb : f.callable = true ∨ ∀ k, f.body k = none)
    (hn : ∀ k n, f.name k = some n → word n = true) (n : Nat) (ss : List PStmt) (h : wordPs ss = true) (t : List Char)
    (ht : pprint f n ss = some t) : nested [] (linesOf [] t) = true := by
  unfold pprint at ht
  split at ht
  · exact absurd ht (by simp)
  · have := stmtsC_nst hl hb hn ss n t h ht [] []
    rw [List.append_nil] at this
    rw [this]
    rfl

/-- A statement of the list or inside of one. -/
inductive Within : List PStmt → PStmt → Prop
  | here {ss s} : s ∈ ss → Within ss s
  | block {ss b s} : .block b ∈ ss → Within b s → Within ss s
  | guard {ss q b s} : .guard q b ∈ ss → Within b s → Within ss s
  | loop {ss it lb ub st a b s} : .for_ it lb ub st a b ∈ ss → Within b s → Within ss s

theorem Within.cons {ss : List PStmt} {s t : PStmt} (h : Within ss s) : Within (t :: ss) s := by
  cases h with
  | here h => exact .here (List.mem_cons_of_mem _ h)
  | block h1 h2 => exact .block (List.mem_cons_of_mem _ h1) h2
  | guard h1 h2 => exact .guard (List.mem_cons_of_mem _ h1) h2
  | loop h1 h2 => exact .loop (List.mem_cons_of_mem _ h1) h2

theorem within_cons {ss : List PStmt} {s t : PStmt} :
    Within (t :: ss) s ↔ Within [t] s ∨ Within ss s := by
  constructor
  · intro h
    cases h with
    | here h =>
      rcases List.mem_cons.1 h with rfl | h
      · exact Or.inl (.here (List.mem_singleton.2 rfl))
      · exact Or.inr (.here h)
    | block h h2 =>
      rcases List.mem_cons.1 h with rfl | h
      · exact Or.inl (.block (List.mem_singleton.2 rfl) h2)
      · exact Or.inr (.block h h2)
    | guard h h2 =>
      rcases List.mem_cons.1 h with rfl | h
      · exact Or.inl (.guard (List.mem_singleton.2 rfl) h2)
      · exact Or.inr (.guard h h2)
    | loop h h2 =>
      rcases List.mem_cons.1 h with rfl | h
      · exact Or.inl (.loop (List.mem_singleton.2 rfl) h2)
      · exact Or.inr (.loop h h2)
  · rintro (h | h)
    · cases h with
      | here h => exact .here (List.mem_cons.2 (Or.inl (List.mem_singleton.1 h)))
      | block h h2 => exact .block (List.mem_cons.2 (Or.inl (List.mem_singleton.1 h))) h2
      | guard h h2 => exact .guard (List.mem_cons.2 (Or.inl (List.mem_singleton.1 h))) h2
      | loop h h2 => exact .loop (List.mem_cons.2 (Or.inl (List.mem_singleton.1 h))) h2
    · exact h.cons

/-- Some loop has no lower or no upper bound. -/
def Open (ss : List PStmt) : Prop :=
  ∃ it lb ub st a b, Within ss (.for_ it lb ub st a b) ∧ (lb = none ∨ ub = none)

theorem open_cons {s : PStmt} {ss : List PStmt} : Open (s :: ss) ↔ Open [s] ∨ Open ss := by
  constructor
  · rintro ⟨it, lb, ub, st, a, b, h, hn⟩
    rcases within_cons.1 h with h | h
    · exact Or.inl ⟨it, lb, ub, st, a, b, h, hn⟩
    · exact Or.inr ⟨it, lb, ub, st, a, b, h, hn⟩
  · rintro (⟨it, lb, ub, st, a, b, h, hn⟩ | ⟨it, lb, ub, st, a, b, h, hn⟩)
    · exact ⟨it, lb, ub, st, a, b, within_cons.2 (Or.inl h), hn⟩
    · exact ⟨it, lb, ub, st, a, b, within_cons.2 (Or.inr h), hn⟩

theorem not_open_nil : ¬ Open [] := by
  rintro ⟨it, lb, ub, st, a, b, h, _⟩
  cases h <;> simp_all

mutual
theorem dies_open : ∀ s : PStmt, dies s = true ↔ Open [s]
  | .root => by
    refine ⟨by simp [dies], ?_⟩
    rintro ⟨it, lb, ub, st, a, b, h, _⟩
    cases h <;> simp_all
  | .ass x e => by
    refine ⟨by simp [dies], ?_⟩
    rintro ⟨it, lb, ub, st, a, b, h, _⟩
    cases h <;> simp_all
  | .user k as => by
    refine ⟨by simp [dies], ?_⟩
    rintro ⟨it, lb, ub, st, a, b, h, _⟩
    cases h <;> simp_all
  | .block body => by
    rw [dies, diess_open body]
    constructor
    · rintro ⟨it, lb, ub, st, a, b, h, hn⟩
      exact ⟨it, lb, ub, st, a, b, .block (by simp) h, hn⟩
    · rintro ⟨it, lb, ub, st, a, b, h, hn⟩
      cases h with
      | here h => simp at h
      | block h h2 => simp at h; subst h; exact ⟨it, lb, ub, st, a, b, h2, hn⟩
      | guard h h2 => simp at h
      | loop h h2 => simp at h
  | .guard q body => by
    rw [dies, diess_open body]
    constructor
    · rintro ⟨it, lb, ub, st, a, b, h, hn⟩
      exact ⟨it, lb, ub, st, a, b, .guard (List.mem_singleton.2 rfl) h, hn⟩
    · rintro ⟨it, lb, ub, st, a, b, h, hn⟩
      cases h with
      | here h => simp at h
      | block h h2 => simp at h
      | guard h h2 => simp at h; obtain ⟨rfl, rfl⟩ := h; exact ⟨it, lb, ub, st, a, b, h2, hn⟩
      | loop h h2 => simp at h
  | .for_ it lb ub st a body => by
    rw [dies, Bool.or_eq_true, Bool.or_eq_true, diess_open body, Option.isNone_iff_eq_none,
      Option.isNone_iff_eq_none]
    constructor
    · rintro (h | ⟨it', lb', ub', st', a', b', h, hn⟩)
      · exact ⟨it, lb, ub, st, a, body, .here (by simp), h⟩
      · exact ⟨it', lb', ub', st', a', b', .loop (List.mem_singleton.2 rfl) h, hn⟩
    · rintro ⟨it', lb', ub', st', a', b', h, hn⟩
      cases h with
      | here h => simp at h; obtain ⟨_, rfl, rfl, _⟩ := h; exact Or.inl hn
      | block h h2 => simp at h
      | guard h h2 => simp at h
      | loop h h2 =>
        simp at h
        obtain ⟨_, _, _, _, _, rfl⟩ := h
        exact Or.inr ⟨it', lb', ub', st', a', b', h2, hn⟩
theorem diess_open : ∀ ss : List PStmt, diess ss = true ↔ Open ss
  | [] => by simp [diess, not_open_nil]
  | s :: ss => by rw [diess, Bool.or_eq_true, dies_open s, diess_open ss, ← open_cons]
end

mutual
theorem stmtC_some {f : Cfg} (hb : f.callable = true ∨ ∀ k, f.body k = none) : ∀ (s : PStmt) (n : Nat) (last : Bool),
    (stmtC f n last s).isSome = true
  | .root, n, last => by simp [stmtC]
  | .ass x e, n, last => by simp [stmtC]
  | .user k as, n, last => by
    rw [stmtC, Option.isSome_map, userC]
    rcases hb with h | h
    · simp [h]
    · simp [h]
  | .block body, n, last => by rw [stmtC, Option.isSome_map]; exact stmtsC_some hb body _
  | .guard q body, n, last => by rw [stmtC, Option.isSome_map]; exact stmtsC_some hb body _
  | .for_ it lb ub st a body, n, last => by rw [stmtC, Option.isSome_map]; exact stmtsC_some hb body _
theorem stmtsC_some {f : Cfg} (hb : f.callable = true ∨ ∀ k, f.body k = none) : ∀ (ss : List PStmt) (n : Nat),
    (stmtsC f n ss).isSome = true
  | [], n => by simp [stmtsC]
  | s :: ss, n => by
    rw [stmtsC]
    obtain ⟨a, ha⟩ := Option.isSome_iff_exists.1 (stmtC_some hb s n ss.isEmpty)
    obtain ⟨b, hb'⟩ := Option.isSome_iff_exists.1 (stmtsC_some hb ss n)
    rw [ha, hb']
    simp [cat]
end

/-- Without OpenScop bodies the printer stops early in one case only: a loop without lower or upper bound in
Fortran. -/
theorem C36_stops {f : Cfg} (hb : f.callable = true ∨ ∀ k, f.body k = none) (n : Nat) (ss : List PStmt) :
    pprint f n ss = none ↔ f.lang = .fortran ∧ Open ss := by
  unfold pprint
  rw [← diess_open]
  split
  · rename_i h
    simp [h]
  · rename_i h
    have := stmtsC_some hb ss n
    constructor
    · intro hn
      rw [hn] at this
      simp at this
    · intro hc
      exact absurd hc h

/-- An outer loop around one without upper bound. -/
example : pprint ⟨.fortran, false, fun _ => none, fun _ => none⟩ 0
    [.for_ "i" (some (.cst 0)) (some (.cst 9)) 1 {} [.for_ "j" (some (.cst 0)) none 1 {} []]] = none :=
  (C36_stops (Or.inr fun _ => rfl) 0 _).2 ⟨rfl, "j", some (.cst 0), none, 1, {}, [],
    .loop (List.mem_singleton.2 rfl) (.here (by simp)), Or.inr rfl⟩

/-- A block has braces in Fortran too. -/
theorem C36_fortran_block : pprint ⟨.fortran, false, fun _ => none, fun _ => none⟩ 0
    [.block [.user 1 [(none, .term 1 (.name "i"))]]] = some "{\n  S1(i)\n}\n".toList := by decide +kernel

/-- A guard in a loop. -/
def exFor : List PStmt := [.for_ "i" (some (.cst 0)) (some (.name "N")) 1 { omp := true, privateVars := some "j" }
  [.guard [⟨.bin .mod (.name "i") 2, .cst 0, 0⟩, ⟨.name "i", .cst 3, 1⟩] [.user 1 [(none, .term 1 (.name "i")), (none, exE)]]]]

example : wordPs exFor = true ∧ plainPs exFor = true ∧ pprint ⟨.fortran, false, fun _ => none, fun _ => none⟩ 0 exFor = some
    ("DO i=lbp, ubp\n  IF ((MOD(i, 2) == 0) .AND. (i >= 3)) THEN\n" ++
     "    S1(i,(MAX(CEILING(REAL(-2*i+N-3)/REAL(4)),0,-FLOOR(REAL(3*j)/REAL(2)))))\n  END IF\nEND DO\n").toList := by
  decide +kernel

example : pprint ⟨.c, false, fun _ => none, fun _ => none⟩ 0 exFor = some
    ("lbp=0;\nubp=N;\n#pragma omp parallel for private(j)\nfor (i=lbp;i<=ubp;i++) {\n  if ((i%2 == 0) && (i >= 3)) {\n" ++
     "    S1(i,(max(max(ceild(-2*i+N-3,4),0),-floord(3*j,2))));\n  }\n}\n").toList := by
  decide +kernel

/-! ## C52: strides in Fortran -/

theorem dec_fuel : ∀ (f n : Nat), n < f → ∀ g, n < g → decChars f n = decChars g n
  | 0, n, h => by omega
  | f + 1, n, h => fun g hg => by
    cases g with
    | zero => omega
    | succ g =>
      rw [decChars, decChars]
      split
      · rfl
      · rw [dec_fuel f (n / 10) (by omega) g (by omega)]

theorem dec_append (n : Nat) (hn : 0 < n) : ∀ (s : Nat), ∃ m, n < m ∧
    decChars (n + 1) n ++ decChars (s + 1) s = decChars (m + 1) m := by
  intro s
  induction s using Nat.strong_induction_on with
  | _ s ih =>
    by_cases hs : s < 10
    · refine ⟨n * 10 + s, by omega, ?_⟩
      have e1 : decChars (s + 1) s = [Char.ofNat (48 + s)] := by rw [decChars, if_pos hs]
      rw [e1]
      conv => rhs; rw [decChars]
      rw [if_neg (by omega), show (n * 10 + s) / 10 = n by omega, show (n * 10 + s) % 10 = s by omega,
        dec_fuel (n * 10 + s) n (by omega) (n + 1) (by omega)]
    · obtain ⟨m, hm, he⟩ := ih (s / 10) (by omega)
      refine ⟨m * 10 + s % 10, by omega, ?_⟩
      have e1 : decChars (s + 1) s = decChars (s / 10 + 1) (s / 10) ++ [Char.ofNat (48 + s % 10)] := by
        rw [decChars, if_neg hs, dec_fuel s (s / 10) (by omega) (s / 10 + 1) (by omega)]
      rw [e1, ← List.append_assoc, he]
      conv => rhs; rw [decChars]
      rw [if_neg (by omega), show (m * 10 + s % 10) / 10 = m by omega, show (m * 10 + s % 10) % 10 = s % 10 by omega,
        dec_fuel (m * 10 + s % 10) m (by omega) (m + 1) (by omega)]

/-- In Fortran the stride is printed right behind the upper bound: every loop with a positive constant
upper bound and a stride above 1 is printed like a loop with stride 1 and a larger bound. -/
theorem C52_stride_glued (it : String) (lb : Expr) (n : Nat) (hn : 0 < n) (s : Int) (hs : 1 < s) :
    ∃ m : Nat, n < m ∧ headC .fortran it (some lb) (some (.cst n)) s {} =
      headC .fortran it (some lb) (some (.cst m)) 1 {} := by
  obtain ⟨m, hm, he⟩ := dec_append n hn s.natAbs
  refine ⟨m, hm, ?_⟩
  have hi : ∀ k : Nat, intC (k : Int) = decChars (k + 1) k := by
    intro k
    unfold intC
    rw [if_neg (by omega)]
    simp
  have h1 : intC s = decChars (s.natAbs + 1) s.natAbs := by
    unfold intC
    rw [if_neg (by omega)]
  simp only [headC, stepC, testC, boundC, exprC, hi, h1, if_pos hs, show ¬ ((1 : Int) < 1) by decide, if_false]
  simp [← he]

example : headC .fortran "i" (some (.cst 0)) (some (.cst 10)) 2 {} = "DO i=0, 102\n".toList := by decide +kernel

/-- In C the stride is part of the increment, for all strides above 1, and the text of the loop tells the
strides apart.  (What is missing, Fortran, is false: `C52_stride_glued`.) -/
theorem C52_c_partial (it : String) (lb ub : Expr) (s s' : Int) (hs : 1 ≤ s) (hs' : 1 ≤ s') (a : Attr) :
    headC .c it (some lb) (some ub) s a = headC .c it (some lb) (some ub) s' a ↔ s = s' := by
  refine ⟨fun h => ?_, fun h => by rw [h]⟩
  simp only [headC, stepC] at h
  have h := List.append_cancel_left (List.append_cancel_left (List.append_cancel_left (List.append_cancel_left h)))
  have key : ∀ a b : Int, 1 < a → 1 < b → intC a ++ lit ") {\n" = intC b ++ lit ") {\n" → a = b := by
    intro a b ha hb h
    have h := List.append_cancel_right h
    unfold intC at h
    rw [if_neg (by omega), if_neg (by omega)] at h
    have h1 := (dec_props (a.natAbs + 1) a.natAbs (by omega)).2.1
    have h2 := (dec_props (b.natAbs + 1) b.natAbs (by omega)).2.1
    rw [h, h2] at h1
    omega
  have diff : ∀ a : Int, 1 < a → ';' :: (it.toList ++ (lit "+=" ++ (intC a ++ lit ") {\n"))) ≠
      ';' :: (it.toList ++ lit "++) {\n") := by
    intro a _ h
    have h := List.append_cancel_left (List.cons.inj h).2
    simp [lit_eq] at h
  by_cases h1 : 1 < s <;> by_cases h2 : 1 < s'
  · rw [if_pos h1, if_pos h2] at h
    exact key s s' h1 h2 (List.append_cancel_left (List.append_cancel_left (List.cons.inj h).2))
  · rw [if_pos h1, if_neg h2] at h
    exact absurd h (diff s h1)
  · rw [if_neg h1, if_pos h2] at h
    exact absurd h.symm (diff s' h2)
  · omega

end Verif.Props.PText
