import Verif.Model.CText

/-!
# The grammar of printed programs is unambiguous

A deterministic recursive descent recogniser, as a relation between the tokens before and after, accepts
everything the grammar derives; two derivations of the same tokens therefore give the same tree.
-/

namespace Verif.CParse
open Verif.CText

/-- The first token is not an operator of level `k`. -/
def notOp (k : Nat) (ts : List Tok) : Prop :=
  ∀ t r o, ts = t :: r → Tok.bop t = some o → o.level ≠ k

mutual
/-- Recursive descent, level `k`. -/
inductive R : Nat → List Tok → CExpr → List Tok → Prop
  | num (n r) : R 0 (.num n :: r) (.num n) r
  | var (s r) : r.head? ≠ some .lpar → R 0 (.id s :: r) (.var s) r
  | paren {ts e r} : R 6 ts e (.rpar :: r) → R 0 (.lpar :: ts) e r
  | call0 (f r) : R 0 (.id f :: .lpar :: .rpar :: r) (.call f []) r
  | call {f ts es r} : ts.head? ≠ some .rpar → RArgs ts es (.rpar :: r) → R 0 (.id f :: .lpar :: ts) (.call f es) r
  | neg {ts e r} : R 1 ts e r → R 1 (.minus :: ts) (.neg e) r
  | prim {ts e r} : ts.head? ≠ some .minus → R 0 ts e r → R 1 ts e r
  | bin {k ts a r e r'} : R (k + 1) ts a r → Rest (k + 2) a r e r' → R (k + 2) ts e r'
/-- Further operands of level `k - 1`. -/
inductive Rest : Nat → CExpr → List Tok → CExpr → List Tok → Prop
  | stop {k a r} : notOp k r → Rest k a r a r
  | op {k a t o ts b r e r'} : Tok.bop t = some o → o.level = k + 1 → R k ts b r →
      Rest (k + 1) (.bin o a b) r e r' → Rest (k + 1) a (t :: ts) e r'
/-- Arguments. -/
inductive RArgs : List Tok → List CExpr → List Tok → Prop
  | one {ts e r} : R 6 ts e r → r.head? ≠ some .comma → RArgs ts [e] r
  | cons {ts e r es r'} : R 6 ts e (.comma :: r) → RArgs r es r' → RArgs ts (e :: es) r'
end

mutual
theorem R_det : ∀ {k ts e r e' r'}, R k ts e r → R k ts e' r' → e = e' ∧ r = r'
  | _, _, _, _, _, _, .num _ _, h => by cases h; exact ⟨rfl, rfl⟩
  | _, _, _, _, _, _, .var _ _ h1, h => by
    cases h with
    | var => exact ⟨rfl, rfl⟩
    | call0 => simp at h1
    | call => simp at h1
  | _, _, _, _, _, _, .paren h1, h => by
    cases h with
    | paren h2 =>
      obtain ⟨a, b⟩ := R_det h1 h2
      simp at b
      exact ⟨a, b⟩
  | _, _, _, _, _, _, .call0 _ _, h => by
    cases h with
    | var _ _ h2 => simp at h2
    | call0 => exact ⟨rfl, rfl⟩
    | call h2 => simp at h2
  | _, _, _, _, _, _, .call h0 h1, h => by
    cases h with
    | var _ _ h2 => simp at h2
    | call0 => simp at h0
    | call _ h2 =>
      obtain ⟨a, b⟩ := RArgs_det h1 h2
      simp at b
      exact ⟨by rw [a], b⟩
  | _, _, _, _, _, _, .neg h1, h => by
    cases h with
    | neg h2 => obtain ⟨a, b⟩ := R_det h1 h2; exact ⟨by rw [a], b⟩
    | prim h2 => simp at h2
  | _, _, _, _, _, _, .prim h0 h1, h => by
    cases h with
    | neg => simp at h0
    | prim _ h2 => exact R_det h1 h2
  | _, _, _, _, _, _, .bin h1 h2, h => by
    cases h with
    | bin g1 g2 =>
      obtain ⟨a, b⟩ := R_det h1 g1
      subst a b
      exact Rest_det h2 g2
theorem Rest_det : ∀ {k a ts e r e' r'}, Rest k a ts e r → Rest k a ts e' r' → e = e' ∧ r = r'
  | _, _, _, _, _, _, _, .stop h1, h => by
    cases h with
    | stop => exact ⟨rfl, rfl⟩
    | op g1 g2 => exact absurd g2 (h1 _ _ _ rfl g1)
  | _, _, _, _, _, _, _, .op g1 g2 g3 g4, h => by
    cases h with
    | stop h1 => exact absurd g2 (h1 _ _ _ rfl g1)
    | op i1 i2 i3 i4 =>
      rw [g1] at i1
      simp only [Option.some.injEq] at i1
      subst i1
      obtain ⟨a, b⟩ := R_det g3 i3
      subst a b
      exact Rest_det g4 i4
theorem RArgs_det : ∀ {ts es r es' r'}, RArgs ts es r → RArgs ts es' r' → es = es' ∧ r = r'
  | _, _, _, _, _, .one h1 h2, h => by
    cases h with
    | one g1 g2 => obtain ⟨a, b⟩ := R_det h1 g1; exact ⟨by rw [a], b⟩
    | cons g1 g2 => obtain ⟨a, b⟩ := R_det h1 g1; rw [b] at h2; simp at h2
  | _, _, _, _, _, .cons h1 h2, h => by
    cases h with
    | one g1 g2 => obtain ⟨a, b⟩ := R_det h1 g1; rw [← b] at g2; simp at g2
    | cons g1 g2 =>
      obtain ⟨a, b⟩ := R_det h1 g1
      simp at b
      subst b
      obtain ⟨c, d⟩ := RArgs_det h2 g2
      exact ⟨by rw [a, c], d⟩
end

/-- What may follow an expression of level `k`: no operator of a lower level and no parenthesis. -/
def follow (k : Nat) (r : List Tok) : Prop :=
  r.head? ≠ some .lpar ∧ ∀ t r' o, r = t :: r' → Tok.bop t = some o → k ≤ o.level

theorem follow_mono {k l : Nat} {r : List Tok} (h : k ≤ l) (hf : follow l r) : follow k r :=
  ⟨hf.1, fun t r' o e1 e2 => Nat.le_trans h (hf.2 t r' o e1 e2)⟩

theorem follow_op {k : Nat} {t : Tok} {o : BOp} (r : List Tok) (h : Tok.bop t = some o) (hl : o.level = k) :
    follow k (t :: r) := by
  constructor
  · cases t <;> simp [Tok.bop] at h <;> simp
  · intro t' r' o' e h'
    simp at e
    rw [← e.1, h] at h'
    simp at h'
    rw [← h', hl]

theorem follow_rpar (k : Nat) (r : List Tok) : follow k (.rpar :: r) :=
  ⟨by simp, fun t r' o e h => by simp at e; rw [← e.1] at h; simp [Tok.bop] at h⟩
theorem follow_comma (k : Nat) (r : List Tok) : follow k (.comma :: r) :=
  ⟨by simp, fun t r' o e h => by simp at e; rw [← e.1] at h; simp [Tok.bop] at h⟩
theorem follow_semi (k : Nat) (r : List Tok) : follow k (.semi :: r) :=
  ⟨by simp, fun t r' o e h => by simp at e; rw [← e.1] at h; simp [Tok.bop] at h⟩
theorem follow_nil (k : Nat) : follow k [] :=
  ⟨by simp, fun t r' o e h => by simp at e⟩

theorem level_le (o : BOp) : 2 ≤ o.level ∧ o.level ≤ 6 := by cases o <;> simp [BOp.level]

mutual
/-- The first token of an expression. -/
theorem parse_head : ∀ {k p e}, Parse k p e → ∃ t q, p = t :: q ∧
    ((∃ s, t = .id s) ∨ (∃ n, t = .num n) ∨ t = .lpar ∨ t = .minus) ∧ (k = 0 → t ≠ .minus)
  | _, _, _, .num n => ⟨_, _, rfl, Or.inr (Or.inl ⟨n, rfl⟩), fun _ => by simp⟩
  | _, _, _, .var s => ⟨_, _, rfl, Or.inl ⟨s, rfl⟩, fun _ => by simp⟩
  | _, _, _, .paren _ => ⟨_, _, rfl, Or.inr (Or.inr (Or.inl rfl)), fun _ => by simp⟩
  | _, _, _, .call0 f => ⟨_, _, rfl, Or.inl ⟨f, rfl⟩, fun _ => by simp⟩
  | _, _, _, .call _ => ⟨_, _, rfl, Or.inl ⟨_, rfl⟩, fun _ => by simp⟩
  | _, _, _, .neg _ => ⟨_, _, rfl, Or.inr (Or.inr (Or.inr rfl)), fun h => by simp at h⟩
  | _, _, _, .lift _ h => by
    obtain ⟨t, q, a, b, _⟩ := parse_head h
    exact ⟨t, q, a, b, fun h => by simp at h⟩
  | _, _, _, .bin _ _ h _ => by
    obtain ⟨t, q, a, b, _⟩ := parse_head h
    exact ⟨t, _, by rw [a]; rfl, b, fun h => by simp at h⟩
theorem args_head : ∀ {p es}, ParseArgs p es → p.head? ≠ some .rpar ∧ p ≠ []
  | _, _, .one h => by
    obtain ⟨t, q, rfl, b, _⟩ := parse_head h
    refine ⟨?_, by simp⟩
    rcases b with ⟨s, rfl⟩ | ⟨s, rfl⟩ | rfl | rfl <;> simp
  | _, _, .cons h _ => by
    obtain ⟨t, q, rfl, b, _⟩ := parse_head h
    refine ⟨?_, by simp⟩
    rcases b with ⟨s, rfl⟩ | ⟨s, rfl⟩ | rfl | rfl <;> simp
end

/-- What acceptance means at each level. -/
def Acc (k : Nat) (p : List Tok) (e : CExpr) : Prop :=
  ∀ rest, follow k rest →
    match k with
    | 0 => R 0 (p ++ rest) e rest
    | 1 => R 1 (p ++ rest) e rest
    | k + 2 => ∀ e' r', Rest (k + 2) e rest e' r' → R (k + 2) (p ++ rest) e' r'

/-- Acceptance when nothing of the same level follows. -/
theorem Acc.full {k : Nat} {p : List Tok} {e : CExpr} (h : Acc k p e) {rest : List Tok}
    (hf : follow (k + 1) rest) : R k (p ++ rest) e rest := by
  have hf' := follow_mono (Nat.le_succ k) hf
  match k, h rest hf' with
  | 0, h => exact h
  | 1, h => exact h
  | k + 2, h =>
    apply h
    apply Rest.stop
    intro t r o e1 e2
    have := hf.2 t r o e1 e2
    omega

theorem head_append {p q : List Tok} {t : Tok} (h : p ≠ []) (h1 : p.head? ≠ some t) :
    (p ++ q).head? ≠ some t := by
  cases p with
  | nil => exact absurd rfl h
  | cons t q => simpa using h1

theorem parse_ne_nil {k : Nat} {p : List Tok} {e : CExpr} (h : Parse k p e) : p ≠ [] := by
  obtain ⟨t, q, rfl, _⟩ := parse_head h
  simp

theorem acc_lift {k : Nat} {p : List Tok} {e : CExpr} (h : Acc k p e) (hm : k = 0 → p.head? ≠ some .minus)
    (hn : p ≠ []) : Acc (k + 1) p e := by
  intro rest hf
  have hr := h.full hf
  cases k with
  | zero => exact R.prim (head_append hn (hm rfl)) hr
  | succ k =>
    intro e' r' hrest
    exact R.bin hr hrest

theorem acc_bin {k : Nat} {p q : List Tok} {a b : CExpr} {t : Tok} {o : BOp} (ht : Tok.bop t = some o)
    (hl : o.level = k + 1) (h1 : Acc (k + 1) p a) (h2 : Acc k q b) : Acc (k + 1) (p ++ t :: q) (.bin o a b) := by
  intro rest hf
  cases k with
  | zero => exact absurd hl (by have hk := (level_le o).1; omega)
  | succ k =>
    intro e' r' hrest
    rw [List.append_assoc, List.cons_append]
    exact h1 _ (follow_op _ ht hl) e' r' (Rest.op ht hl (h2.full hf) hrest)

mutual
theorem parse_acc : ∀ {k p e}, Parse k p e → Acc k p e
  | _, _, _, .num n => fun rest _ => R.num n rest
  | _, _, _, .var s => fun rest hf => R.var s rest hf.1
  | _, _, _, .paren h => fun rest _ => by
    have := (parse_acc h).full (follow_rpar 7 rest)
    show R 0 (.lpar :: (_ ++ [.rpar]) ++ rest) _ _
    rw [List.cons_append, List.append_assoc]
    exact R.paren this
  | _, _, _, .call0 f => fun rest _ => R.call0 f rest
  | _, _, _, .call h => fun rest _ => by
    obtain ⟨h1, h2⟩ := args_head h
    have := args_acc h (.rpar :: rest) (follow_rpar 7 rest) (by simp)
    show R 0 (.id _ :: .lpar :: (_ ++ [.rpar]) ++ rest) _ _
    rw [List.cons_append, List.cons_append, List.append_assoc]
    exact R.call (head_append h2 h1) this
  | _, _, _, .neg h => fun rest hf => R.neg (parse_acc h rest hf)
  | _, _, _, .lift _ h => acc_lift (parse_acc h) (fun hk => by
    obtain ⟨t, q, hp, _, hm⟩ := parse_head h
    rw [hp]
    simpa using hm hk) (parse_ne_nil h)
  | _, _, _, .bin ht hl h1 h2 => acc_bin ht hl (parse_acc h1) (parse_acc h2)
theorem args_acc : ∀ {p es}, ParseArgs p es → ∀ rest, follow 7 rest → rest.head? ≠ some .comma →
    RArgs (p ++ rest) es rest
  | _, _, .one h => fun rest hf hc => RArgs.one ((parse_acc h).full hf) hc
  | _, _, .cons h1 h2 => fun rest hf hc => by
    rw [List.append_assoc, List.cons_append]
    exact RArgs.cons ((parse_acc h1).full (follow_comma 7 _)) (args_acc h2 rest hf hc)
end

/-- The expression grammar is unambiguous. -/
theorem parse_unique {k : Nat} {p : List Tok} {e e' : CExpr} (h : Parse k p e) (h' : Parse k p e') : e = e' := by
  have a := (parse_acc h).full (follow_nil (k + 1))
  have b := (parse_acc h').full (follow_nil (k + 1))
  exact (R_det a b).1

/-! ## Statements -/

/-- Expressions with something behind. -/
theorem parse_prefix {p p' : List Tok} {e e' : CExpr} {r r' : List Tok} (h : Parse 6 p e) (h' : Parse 6 p' e')
    (hf : follow 7 r) (hf' : follow 7 r') (he : p ++ r = p' ++ r') : e = e' ∧ p = p' ∧ r = r' := by
  have a := (parse_acc h).full hf
  have b := (parse_acc h').full hf'
  rw [he] at a
  obtain ⟨c, d⟩ := R_det a b
  subst c d
  exact ⟨rfl, List.append_cancel_right he, rfl⟩

/-- The end of a statement list. -/
def stop (r : List Tok) : Prop := r = [] ∨ ∃ q, r = .rbrace :: q

theorem parse_no_eq {x : String} {q p : List Tok} {e : CExpr} {r r' : List Tok} (h : Parse 6 p e) (hf : follow 7 r)
    (he : p ++ r = .id x :: .asg :: q) (hr : r = .semi :: r') : False := by
  have a := (parse_acc h).full hf
  rw [he] at a
  -- the variable alone is also accepted in front of the equality sign
  have hfa : follow 7 (.asg :: q) :=
    ⟨by simp, fun t r' o e h => by simp at e; rw [← e.1] at h; simp [Tok.bop] at h⟩
  have b : Parse 6 [.id x] (.var x) :=
    .lift (by omega) (.lift (by omega) (.lift (by omega) (.lift (by omega) (.lift (by omega)
      (.lift (by omega) (.var x))))))
  have c := (parse_acc b).full hfa
  obtain ⟨_, d⟩ := R_det a c
  rw [hr] at d
  simp at d

theorem init_prefix {i i' : List Tok} {init init' : Option (String × CExpr)} {r r' : List Tok}
    (h : ParseInit i init) (h' : ParseInit i' init') (he : i ++ .semi :: r = i' ++ .semi :: r') :
    init = init' ∧ r = r' := by
  cases h with
  | none =>
    cases h' with
    | none => simp at he; exact ⟨rfl, he⟩
    | some h2 => simp at he
  | some h1 =>
    cases h' with
    | none => simp at he
    | some h2 =>
      simp only [List.cons_append, List.cons.injEq, Tok.id.injEq, true_and] at he
      obtain ⟨hx, he⟩ := he
      obtain ⟨a, b, c⟩ := parse_prefix h1 h2 (follow_semi 7 _) (follow_semi 7 _) he
      simp at c
      exact ⟨by rw [a, hx], c⟩

theorem test_prefix {i i' : List Tok} {init init' : Option CExpr} {r r' : List Tok}
    (h : ParseTest i init) (h' : ParseTest i' init') (he : i ++ .semi :: r = i' ++ .semi :: r') :
    init = init' ∧ r = r' := by
  cases h with
  | none =>
    cases h' with
    | none => simp at he; exact ⟨rfl, he⟩
    | some h2 =>
      obtain ⟨t, q, rfl, hb, _⟩ := parse_head h2
      simp at he
      rcases hb with ⟨s, rfl⟩ | ⟨s, rfl⟩ | rfl | rfl <;> simp at he
  | some h1 =>
    cases h' with
    | none =>
      obtain ⟨t, q, rfl, hb, _⟩ := parse_head h1
      simp at he
      rcases hb with ⟨s, rfl⟩ | ⟨s, rfl⟩ | rfl | rfl <;> simp at he
    | some h2 =>
      obtain ⟨a, b, c⟩ := parse_prefix h1 h2 (follow_semi 7 _) (follow_semi 7 _) he
      simp at c
      exact ⟨by rw [a], c⟩

theorem step_prefix {i i' : List Tok} {y y' : String} {s s' : CExpr} {r r' : List Tok}
    (h : ParseStep i y s) (h' : ParseStep i' y' s') (he : i ++ .rpar :: r = i' ++ .rpar :: r') :
    y = y' ∧ s = s' ∧ r = r' := by
  cases h with
  | incr =>
    cases h' with
    | incr => simp at he; exact ⟨he.1, rfl, he.2⟩
    | add h2 => simp at he
  | add h1 =>
    cases h' with
    | incr => simp at he
    | add h2 =>
      simp only [List.cons_append, List.cons.injEq, Tok.id.injEq, true_and] at he
      obtain ⟨hx, he⟩ := he
      obtain ⟨a, b, c⟩ := parse_prefix h1 h2 (follow_rpar 7 _) (follow_rpar 7 _) he
      simp at c
      exact ⟨hx, a, c⟩

theorem stmts_head : ∀ {p b}, ParseStmts p b → b ≠ [] → ∃ t q, p = t :: q ∧ t ≠ .rbrace := by
  intro p b h hb
  cases h with
  | nil => exact absurd rfl hb
  | asg => exact ⟨_, _, rfl, by simp⟩
  | expr _ h =>
    obtain ⟨t, q, rfl, hb, _⟩ := parse_head h
    refine ⟨t, _, rfl, ?_⟩
    rcases hb with ⟨s, rfl⟩ | ⟨s, rfl⟩ | rfl | rfl <;> simp
  | block => exact ⟨_, _, rfl, by simp⟩
  | ite => exact ⟨_, _, rfl, by simp⟩
  | loop => exact ⟨_, _, rfl, by simp⟩

theorem stop_ne {t : Tok} {q : List Tok} (h : t ≠ .rbrace) : ¬ stop (t :: q) := by
  rintro (h' | ⟨q', h'⟩)
  · simp at h'
  · simp at h'; exact h h'.1

theorem stop_rbrace (q : List Tok) : stop (.rbrace :: q) := Or.inr ⟨q, rfl⟩

theorem head_of_append {t : Tok} {p q r : List Tok} (hp : p ≠ []) (h : t :: q = p ++ r) : p.head? = some t := by
  cases p with
  | nil => exact absurd rfl hp
  | cons a p => simp at h; simp [h.1]

theorem stmts_prefix : ∀ {p b}, ParseStmts p b → ∀ {p' b' r r'}, ParseStmts p' b' → stop r → stop r' →
    p ++ r = p' ++ r' → b = b' ∧ r = r' := by
  intro p b h
  induction h with
  | nil =>
    intro p' b' r r' h' hs hs' he
    cases hb : b' with
    | nil =>
      subst hb
      cases h'
      exact ⟨rfl, by simpa using he⟩
    | cons s b' =>
      exfalso
      obtain ⟨t, q, rfl, ht⟩ := stmts_head h' (by simp [hb])
      simp at he
      rw [he] at hs
      exact stop_ne ht hs
  | @asg x p e q rr hk h1 h2 ih =>
    intro p' b' r r' h' hs hs' he
    cases h' with
    | nil =>
      exfalso
      simp only [List.nil_append] at he
      rw [← he] at hs'
      exact stop_ne (by simp) hs'
    | @asg x' p2 e' q' rr' hk' g1 g2 =>
      simp only [List.cons_append, List.cons.injEq, Tok.id.injEq, true_and, List.append_assoc] at he
      obtain ⟨rfl, he⟩ := he
      obtain ⟨a, b, c⟩ := parse_prefix h1 g1 (follow_semi 7 _) (follow_semi 7 _) he
      simp only [List.cons.injEq, true_and] at c
      obtain ⟨d, f⟩ := ih g2 hs hs' c
      exact ⟨by rw [a, d], f⟩
    | @expr p2 e' q' rr' hk' g1 g2 =>
      exfalso
      simp only [List.append_assoc, List.cons_append] at he
      exact parse_no_eq g1 (follow_semi 7 _) he.symm rfl
    | block => simp at he
    | ite => simp at he
    | loop => simp at he
  | @expr p e q rr hk h1 h2 ih =>
    intro p' b' r r' h' hs hs' he
    cases h' with
    | nil =>
      exfalso
      obtain ⟨t, q', rfl, hb, _⟩ := parse_head h1
      simp at he
      rw [← he] at hs'
      refine stop_ne ?_ hs'
      rcases hb with ⟨s, rfl⟩ | ⟨s, rfl⟩ | rfl | rfl <;> simp
    | @asg x' p2 e' q' rr' hk' g1 g2 =>
      exfalso
      simp only [List.append_assoc, List.cons_append] at he
      exact parse_no_eq h1 (follow_semi 7 _) he rfl
    | @expr p2 e' q' rr' hk' g1 g2 =>
      simp only [List.append_assoc, List.cons_append] at he
      obtain ⟨a, b, c⟩ := parse_prefix h1 g1 (follow_semi 7 _) (follow_semi 7 _) he
      simp only [List.cons.injEq, true_and] at c
      obtain ⟨d, f⟩ := ih g2 hs hs' c
      exact ⟨by rw [a, d], f⟩
    | block =>
      exfalso
      obtain ⟨t, q', rfl, hb, _⟩ := parse_head h1
      simp at he
      rcases hb with ⟨s, rfl⟩ | ⟨s, rfl⟩ | rfl | rfl <;> simp at he
    | ite =>
      exfalso
      simp only [List.cons_append, List.append_assoc] at he
      have := hk _ (head_of_append (parse_ne_nil h1) he.symm)
      simp [keyword] at this
    | loop =>
      exfalso
      simp only [List.cons_append, List.append_assoc] at he
      have := hk _ (head_of_append (parse_ne_nil h1) he.symm)
      simp [keyword] at this
  | @block p b q rr h1 h2 ih1 ih2 =>
    intro p' b' r r' h' hs hs' he
    cases h' with
    | nil =>
      exfalso
      simp only [List.nil_append] at he
      rw [← he] at hs'
      exact stop_ne (by simp) hs'
    | asg => simp at he
    | @expr p2 e' q' rr' hk' g1 g2 =>
      exfalso
      obtain ⟨t, q', rfl, hb, _⟩ := parse_head g1
      simp at he
      rcases hb with ⟨s, rfl⟩ | ⟨s, rfl⟩ | rfl | rfl <;> simp at he
    | @block p2 b2 q2 rr2 g1 g2 =>
      simp only [List.cons_append, List.cons.injEq, true_and, List.append_assoc] at he
      obtain ⟨a, c⟩ := ih1 g1 (stop_rbrace _) (stop_rbrace _) he
      simp only [List.cons.injEq, true_and] at c
      obtain ⟨d, f⟩ := ih2 g2 hs hs' c
      exact ⟨by rw [a, d], f⟩
    | ite => simp at he
    | loop => simp at he
  | @ite c e p b q rr h0 h1 h2 ih1 ih2 =>
    intro p' b' r r' h' hs hs' he
    cases h' with
    | nil =>
      exfalso
      simp only [List.nil_append] at he
      rw [← he] at hs'
      exact stop_ne (by simp) hs'
    | asg => simp at he
    | @expr p2 e' q' rr' hk' g1 g2 =>
      exfalso
      simp only [List.cons_append, List.append_assoc] at he
      have := hk' _ (head_of_append (parse_ne_nil g1) he)
      simp [keyword] at this
    | block => simp at he
    | @ite c2 e2 p2 b2 q2 rr2 g0 g1 g2 =>
      simp only [List.cons_append, List.cons.injEq, true_and, List.append_assoc] at he
      obtain ⟨a, b, c⟩ := parse_prefix h0 g0 (follow_rpar 7 _) (follow_rpar 7 _) he
      simp only [List.cons.injEq, true_and] at c
      obtain ⟨a', c'⟩ := ih1 g1 (stop_rbrace _) (stop_rbrace _) c
      simp only [List.cons.injEq, true_and] at c'
      obtain ⟨d, f⟩ := ih2 g2 hs hs' c'
      exact ⟨by rw [a, a', d], f⟩
    | loop => simp at he
  | @loop i init t test s y st p b q rr h3 h4 h5 h1 h2 ih1 ih2 =>
    intro p' b' r r' h' hs hs' he
    cases h' with
    | nil =>
      exfalso
      simp only [List.nil_append] at he
      rw [← he] at hs'
      exact stop_ne (by simp) hs'
    | asg => simp at he
    | @expr p2 e' q' rr' hk' g1 g2 =>
      exfalso
      simp only [List.cons_append, List.append_assoc] at he
      have := hk' _ (head_of_append (parse_ne_nil g1) he)
      simp [keyword] at this
    | block => simp at he
    | ite => simp at he
    | loop g3 g4 g5 g1 g2 =>
      simp only [List.cons_append, List.cons.injEq, true_and, List.append_assoc] at he
      obtain ⟨a1, c⟩ := init_prefix h3 g3 he
      obtain ⟨a2, c⟩ := test_prefix h4 g4 c
      obtain ⟨a3, a4, c⟩ := step_prefix h5 g5 c
      simp only [List.cons.injEq, true_and] at c
      obtain ⟨a', c'⟩ := ih1 g1 (stop_rbrace _) (stop_rbrace _) c
      simp only [List.cons.injEq, true_and] at c'
      obtain ⟨d, f⟩ := ih2 g2 hs hs' c'
      exact ⟨by rw [a1, a2, a3, a4, a', d], f⟩

/-- The grammar of statement lists is unambiguous. -/
theorem stmts_unique {p : List Tok} {b b' : List CStmt} (h : ParseStmts p b) (h' : ParseStmts p b') : b = b' :=
  (stmts_prefix h h' (Or.inl rfl) (Or.inl rfl) rfl).1

/-! ## Execution is deterministic -/

mutual
theorem run_det : ∀ {ss env t e t' e'}, Run ss env t e → Run ss env t' e' → t = t' ∧ e = e'
  | _, _, _, _, _, _, .nil _, h => by cases h; exact ⟨rfl, rfl⟩
  | _, _, _, _, _, _, .asg h1, h => by cases h with | asg h2 => exact run_det h1 h2
  | _, _, _, _, _, _, .expr h1 h2, h => by
    cases h with
    | expr g1 g2 =>
      rw [h1] at g1
      simp only [Option.some.injEq] at g1
      obtain ⟨a, b⟩ := run_det h2 g2
      exact ⟨by rw [g1, a], b⟩
  | _, _, _, _, _, _, .block h1 h2, h => by
    cases h with
    | block g1 g2 =>
      obtain ⟨a, b⟩ := run_det h1 g1
      subst a b
      obtain ⟨a, b⟩ := run_det h2 g2
      exact ⟨by rw [a], b⟩
  | _, _, _, _, _, _, .iteT h0 h1 h2, h => by
    cases h with
    | iteT _ g1 g2 =>
      obtain ⟨a, b⟩ := run_det h1 g1
      subst a b
      obtain ⟨a, b⟩ := run_det h2 g2
      exact ⟨by rw [a], b⟩
    | iteF g0 => exact absurd g0 h0
  | _, _, _, _, _, _, .iteF h0 h1, h => by
    cases h with
    | iteT g0 => exact absurd h0 g0
    | iteF _ g1 => exact run_det h1 g1
  | _, _, _, _, _, _, .loopI h1 h2, h => by
    cases h with
    | loopI g1 g2 =>
      obtain ⟨a, b⟩ := runLoop_det h1 g1
      subst a b
      obtain ⟨a, b⟩ := run_det h2 g2
      exact ⟨by rw [a], b⟩
  | _, _, _, _, _, _, .loopN h1 h2, h => by
    cases h with
    | loopN g1 g2 =>
      obtain ⟨a, b⟩ := runLoop_det h1 g1
      subst a b
      obtain ⟨a, b⟩ := run_det h2 g2
      exact ⟨by rw [a], b⟩
theorem runLoop_det : ∀ {c y s b env t e t' e'}, RunLoop c y s b env t e → RunLoop c y s b env t' e' →
    t = t' ∧ e = e'
  | _, _, _, _, _, _, _, _, _, .done h1, h => by
    cases h with
    | done => exact ⟨rfl, rfl⟩
    | iter g => exact absurd h1 (g _ rfl)
  | _, _, _, _, _, _, _, _, _, .iter h0 h1 h2, h => by
    cases h with
    | done g => exact absurd g (h0 _ rfl)
    | iter _ g1 g2 =>
      obtain ⟨a, b⟩ := run_det h1 g1
      subst a b
      obtain ⟨a, b⟩ := runLoop_det h2 g2
      exact ⟨by rw [a], b⟩
end

end Verif.CParse
