import Verif.Model.CMacro
import Verif.Props.ProgText
import Mathlib.Tactic.Linarith

/-!
# C65: the macros of the generated program
-/

namespace Verif.Props.Macro
open Verif.IntOps Verif.Clast Verif.CText Verif.CMacro Verif.CParse Verif.PExpr Verif.PStmt Verif.PPrint
open Verif.ProgText Verif.Props.PPrint Verif.Props.ProgText

/-! ## The grammar is unambiguous -/

/-- The first token is not an operator of level `k`. -/
def notOp (k : Nat) (ts : List XTok) : Prop :=
  ∀ t r o, ts = t :: r → XTok.bop t = some o → o.level ≠ k

mutual
/-- Recursive descent, level `k`. -/
inductive R : Nat → List XTok → XExpr → List XTok → Prop
  | num (n r) : R 0 (.t (.num n) :: r) (.num n) r
  | var (s r) : R 0 (.t (.id s) :: r) (.var s) r
  | paren {ts e r} : R 7 ts e (.t .rpar :: r) → R 0 (.t .lpar :: ts) e r
  | neg {ts e r} : R 1 ts e r → R 1 (.t .minus :: ts) (.neg e) r
  | prim {ts e r} : ts.head? ≠ some (.t .minus) → R 0 ts e r → R 1 ts e r
  | bin {k ts a r e r'} : k + 2 < 7 → R (k + 1) ts a r → Rest (k + 2) a r e r' → R (k + 2) ts e r'
  | cond {ts c r a r' b r''} : R 6 ts c (.quest :: r) → R 7 r a (.colon :: r') → R 7 r' b r'' →
      R 7 ts (.cond c a b) r''
  | plain {ts e r} : R 6 ts e r → r.head? ≠ some .quest → R 7 ts e r
/-- Further operands of level `k - 1`. -/
inductive Rest : Nat → XExpr → List XTok → XExpr → List XTok → Prop
  | stop {k a r} : notOp k r → Rest k a r a r
  | op {k a t o ts b r e r'} : XTok.bop t = some o → o.level = k + 1 → R k ts b r →
      Rest (k + 1) (.bin o a b) r e r' → Rest (k + 1) a (t :: ts) e r'
end

mutual
theorem R_det : ∀ {k ts e r e' r'}, R k ts e r → R k ts e' r' → e = e' ∧ r = r'
  | _, _, _, _, _, _, .num _ _, h => by cases h; exact ⟨rfl, rfl⟩
  | _, _, _, _, _, _, .var _ _, h => by cases h; exact ⟨rfl, rfl⟩
  | _, _, _, _, _, _, .paren h1, h => by
    cases h with
    | paren h2 =>
      obtain ⟨a, b⟩ := R_det h1 h2
      simp at b
      exact ⟨a, b⟩
  | _, _, _, _, _, _, .neg h1, h => by
    cases h with
    | neg h2 => obtain ⟨a, b⟩ := R_det h1 h2; exact ⟨by rw [a], b⟩
    | prim h2 => simp at h2
  | _, _, _, _, _, _, .prim h0 h1, h => by
    cases h with
    | neg => simp at h0
    | prim _ h2 => exact R_det h1 h2
  | _, _, _, _, _, _, .bin hk h1 h2, h => by
    cases h with
    | bin _ g1 g2 =>
      obtain ⟨a, b⟩ := R_det h1 g1
      subst a b
      exact Rest_det h2 g2
    | cond => omega
    | plain => omega
  | _, _, _, _, _, _, .cond h1 h2 h3, h => by
    cases h with
    | bin hk => omega
    | cond g1 g2 g3 =>
      obtain ⟨a, b⟩ := R_det h1 g1
      simp at b
      subst a b
      obtain ⟨a, b⟩ := R_det h2 g2
      simp at b
      subst a b
      obtain ⟨a, b⟩ := R_det h3 g3
      exact ⟨by rw [a], b⟩
    | plain g1 g2 =>
      obtain ⟨a, b⟩ := R_det h1 g1
      rw [← b] at g2
      simp at g2
  | _, _, _, _, _, _, .plain h1 h2, h => by
    cases h with
    | bin hk => omega
    | cond g1 g2 g3 =>
      obtain ⟨a, b⟩ := R_det h1 g1
      rw [b] at h2
      simp at h2
    | plain g1 g2 => exact R_det h1 g1
theorem Rest_det : ∀ {k a ts e r e' r'}, Rest k a ts e r → Rest k a ts e' r' → e = e' ∧ r = r'
  | _, _, _, _, _, _, _, .stop h1, h => by
    cases h with
    | stop => exact ⟨rfl, rfl⟩
    | op g1 g2 => exact absurd g2 (h1 _ _ _ rfl g1)
  | _, _, _, _, _, _, _, .op g1 g2 g3 g4, h => by
    cases h with
    | stop h1 => exact absurd g2 (h1 _ _ _ rfl g1)
    | op i1 i2 i3 i4 =>
      rw [g1] at i1
      simp only [Option.some.injEq] at i1
      subst i1
      obtain ⟨a, b⟩ := R_det g3 i3
      subst a b
      exact Rest_det g4 i4
end

/-- What may follow an expression of level `k`: no operator of a lower level. -/
def follow (k : Nat) (r : List XTok) : Prop :=
  ∀ t r' o, r = t :: r' → XTok.bop t = some o → k ≤ o.level

theorem follow_mono {k l : Nat} {r : List XTok} (h : k ≤ l) (hf : follow l r) : follow k r :=
  fun t r' o e1 e2 => Nat.le_trans h (hf t r' o e1 e2)

theorem follow_op {k : Nat} {t : XTok} {o : XOp} (r : List XTok) (h : XTok.bop t = some o) (hl : o.level = k) :
    follow k (t :: r) := by
  intro t' r' o' e h'
  simp at e
  rw [← e.1, h] at h'
  simp at h'
  rw [← h', hl]

theorem follow_no {k : Nat} {t : XTok} (r : List XTok) (h : XTok.bop t = none) : follow k (t :: r) :=
  fun t' r' o e h' => by simp at e; rw [← e.1, h] at h'; simp at h'

theorem follow_nil (k : Nat) : follow k [] := fun t r' o e h => by simp at e

theorem level_le (o : XOp) : 2 ≤ o.level ∧ o.level ≤ 6 := by
  cases o with
  | b o => exact CParse.level_le o
  | lt => exact ⟨by decide, by decide⟩
  | gt => exact ⟨by decide, by decide⟩

/-- The first token of an expression. -/
theorem parse_head {k : Nat} {p : List XTok} {e : XExpr} (h : XParse k p e) :
    ∃ t q, p = t :: q ∧ (k = 0 → t ≠ .t .minus) := by
  induction h with
  | num n => exact ⟨_, _, rfl, fun _ => by simp⟩
  | var s => exact ⟨_, _, rfl, fun _ => by simp⟩
  | paren _ _ => exact ⟨_, _, rfl, fun _ => by simp⟩
  | neg _ _ => exact ⟨_, _, rfl, fun h => by simp at h⟩
  | lift _ _ ih => obtain ⟨t, q, a, _⟩ := ih; exact ⟨t, q, a, fun h => by simp at h⟩
  | bin _ _ _ _ ih _ => obtain ⟨t, q, a, _⟩ := ih; exact ⟨t, _, by rw [a]; rfl, fun h => by simp at h⟩
  | cond _ _ _ ih _ _ => obtain ⟨t, q, a, _⟩ := ih; exact ⟨t, _, by rw [a]; rfl, fun h => by simp at h⟩

/-- What acceptance means at each level. -/
def Acc (k : Nat) (p : List XTok) (e : XExpr) : Prop :=
  if k < 2 then ∀ rest, R k (p ++ rest) e rest
  else if k = 7 then ∀ rest, follow 7 rest → rest.head? ≠ some .quest → R 7 (p ++ rest) e rest
  else ∀ rest, follow k rest → ∀ e' r', Rest k e rest e' r' → R k (p ++ rest) e' r'

/-- Acceptance when nothing of the same level follows. -/
theorem Acc.full {k : Nat} (hk : k < 7) {p : List XTok} {e : XExpr} (h : Acc k p e) {rest : List XTok}
    (hf : follow (k + 1) rest) : R k (p ++ rest) e rest := by
  unfold Acc at h
  split at h
  · exact h rest
  · rw [if_neg (by omega)] at h
    refine h rest (follow_mono (Nat.le_succ k) hf) _ _ (Rest.stop ?_)
    intro t r o e1 e2
    have := hf t r o e1 e2
    omega

theorem Acc.full7 {p : List XTok} {e : XExpr} (h : Acc 7 p e) {rest : List XTok} (hf : follow 7 rest)
    (hq : rest.head? ≠ some .quest) : R 7 (p ++ rest) e rest := by
  unfold Acc at h
  rw [if_neg (by omega), if_pos rfl] at h
  exact h rest hf hq

theorem acc_of {k : Nat} (hk : k < 5) {p : List XTok} {e : XExpr}
    (h : ∀ rest, follow (k + 2) rest → ∀ e' r', Rest (k + 2) e rest e' r' → R (k + 2) (p ++ rest) e' r') :
    Acc (k + 2) p e := by
  unfold Acc
  rw [if_neg (by omega), if_neg (by omega)]
  exact h

theorem parse_acc {k : Nat} {p : List XTok} {e : XExpr} (h : XParse k p e) : Acc k p e := by
  induction h with
  | num n => exact fun rest => R.num n rest
  | var s => exact fun rest => R.var s rest
  | paren _ ih =>
    intro rest
    have := ih.full7 (rest := .t .rpar :: rest) (follow_no _ rfl) (by simp)
    rw [List.cons_append, List.append_assoc]
    exact R.paren this
  | neg _ ih => exact fun rest => R.neg (ih rest)
  | @lift k p e hk h ih =>
    obtain ⟨t, q, hp, hm⟩ := parse_head h
    match k with
    | 0 =>
      intro rest
      exact R.prim (by rw [hp]; simpa using hm rfl) (ih rest)
    | 6 =>
      show if _ then _ else _
      rw [if_neg (by omega), if_pos rfl]
      exact fun rest hf hq => R.plain (ih.full (by omega) hf) hq
    | k + 1 =>
      by_cases h6 : k = 5
      · subst h6
        show if _ then _ else _
        rw [if_neg (by omega), if_pos rfl]
        exact fun rest hf hq => R.plain (ih.full (by omega) hf) hq
      · exact acc_of (by omega) fun rest hf e' r' hr => R.bin (by omega) (ih.full (by omega) hf) hr
  | @bin k p a q b t o ht hl _ _ ih1 ih2 =>
    have h6 := level_le o
    match k with
    | 0 => omega
    | k + 1 =>
      refine acc_of (by omega) fun rest hf e' r' hr => ?_
      rw [List.append_assoc, List.cons_append]
      have h1 : ∀ rest, follow (k + 2) rest → ∀ e' r', Rest (k + 2) a rest e' r' → R (k + 2) (p ++ rest) e' r' := by
        have := ih1
        unfold Acc at this
        rwa [if_neg (by omega), if_neg (by omega)] at this
      exact h1 _ (follow_op _ ht hl) _ _ (Rest.op ht hl (ih2.full (by omega) hf) hr)
  | @cond p c q a r b _ _ _ ih1 ih2 ih3 =>
    show if _ then _ else _
    rw [if_neg (by omega), if_pos rfl]
    intro rest hf hq
    rw [List.append_assoc, List.cons_append, List.append_assoc, List.cons_append]
    exact R.cond (ih1.full (by omega) (follow_no _ rfl)) (ih2.full7 (follow_no _ rfl) (by simp)) (ih3.full7 hf hq)

/-- The grammar is unambiguous. -/
theorem parse_unique {p : List XTok} {e e' : XExpr} (h : XParse 7 p e) (h' : XParse 7 p e') : e = e' :=
  (R_det ((parse_acc h).full7 (follow_nil 7) (by simp)) ((parse_acc h').full7 (follow_nil 7) (by simp))).1

theorem _root_.Verif.CMacro.XParse.up {k l : Nat} {p : List XTok} {e : XExpr} (h : XParse k p e) (hkl : k ≤ l) (hl : l ≤ 7) : XParse l p e := by
  induction l with
  | zero => have : k = 0 := by omega
            exact this ▸ h
  | succ l ih =>
    rcases Nat.lt_or_ge l k with h1 | h1
    · have : k = l + 1 := by omega
      exact this ▸ h
    · exact .lift (by omega) (ih h1 (by omega))

/-! ## Replacement -/

theorem takeArgs_cons (d : Nat) (cur : List Tok) (t : Tok) (ts : List Tok) : takeArgs d cur (t :: ts) =
    if t = .lpar then takeArgs (d + 1) (cur ++ [t]) ts
    else if t = .rpar then
      match d with
      | 0 => some ([cur], ts)
      | d + 1 => takeArgs d (cur ++ [t]) ts
    else if t = .comma && d == 0 then (takeArgs 0 [] ts).map fun r => (cur :: r.1, r.2)
    else takeArgs d (cur ++ [t]) ts := by
  cases d <;> rfl

theorem takeArgs_len : ∀ (ts : List Tok) (d : Nat) (cur : List Tok) (as : List (List Tok)) (rest : List Tok),
    takeArgs d cur ts = some (as, rest) →
    rest.length < ts.length ∧ ∀ a ∈ as, a.length < cur.length + ts.length
  | [], d, cur, as, rest, h => by simp [takeArgs] at h
  | t :: ts, d, cur, as, rest, h => by
    rw [takeArgs_cons] at h
    have step : ∀ d', takeArgs d' (cur ++ [t]) ts = some (as, rest) →
        rest.length < (t :: ts).length ∧ ∀ a ∈ as, a.length < cur.length + (t :: ts).length := by
      intro d' h
      obtain ⟨h1, h2⟩ := takeArgs_len ts d' _ _ _ h
      refine ⟨by simp; omega, fun a ha => ?_⟩
      have := h2 a ha
      simp at this ⊢
      omega
    split at h
    · exact step _ h
    · split at h
      · match d, h with
        | 0, h =>
          simp only [Option.some.injEq, Prod.mk.injEq] at h
          obtain ⟨rfl, rfl⟩ := h
          exact ⟨by simp, by simp⟩
        | d + 1, h => exact step _ h
      · split at h
        · simp only [Option.map_eq_some_iff, Prod.mk.injEq, Prod.exists] at h
          obtain ⟨as', r', h, rfl, rfl⟩ := h
          obtain ⟨h1, h2⟩ := takeArgs_len ts 0 [] _ _ h
          refine ⟨by simp; omega, fun a ha => ?_⟩
          rcases List.mem_cons.1 ha with rfl | ha
          · simp
          · have := h2 a ha
            simp at this ⊢
            omega
        · exact step _ h

theorem mapM_congr' {α β : Type} {f g : α → Option β} : ∀ {l : List α}, (∀ a ∈ l, f a = g a) → l.mapM f = l.mapM g
  | [], _ => rfl
  | a :: l, h => by
    rw [List.mapM_cons, List.mapM_cons, h a (by simp), mapM_congr' fun b hb => h b (by simp [hb])]

theorem callOf_len {M : String → Option XMacro} {ts : List Tok} {m : XMacro} {ts' : List Tok}
    (h : callOf M ts = some (m, ts')) : ts'.length + 2 = ts.length := by
  unfold callOf at h
  split at h
  · simp only [Option.map_eq_some_iff, Prod.mk.injEq] at h
    obtain ⟨_, _, _, rfl⟩ := h
    simp
  · simp at h

theorem expand_fuel (M : String → Option XMacro) : ∀ (n : Nat) (ts : List Tok), ts.length ≤ n →
    expandGo M n ts = expand M ts := by
  suffices h : ∀ (k : Nat) (ts : List Tok) (n m : Nat), ts.length ≤ k → ts.length ≤ n → ts.length ≤ m →
      expandGo M n ts = expandGo M m ts from fun n ts hn => h ts.length ts n _ (Nat.le_refl _) hn (Nat.le_refl _)
  intro k
  induction k with
  | zero =>
    intro ts n m hk _ _
    have : ts = [] := by simpa using hk
    subst this
    cases n <;> cases m <;> rfl
  | succ k ih =>
    intro ts n m hk hn hm
    match ts, n, m with
    | [], n, m => cases n <;> cases m <;> rfl
    | t :: ts, 0, m => simp at hn
    | t :: ts, n + 1, 0 => simp at hm
    | t :: ts, n + 1, m + 1 =>
      simp only [List.length_cons, Nat.add_le_add_iff_right] at hk hn hm
      rw [expandGo, expandGo]
      cases hc : callOf M (t :: ts) with
      | none => rw [ih ts n m hk hn hm]
      | some c =>
        obtain ⟨mc, ts'⟩ := c
        have hl := callOf_len hc
        simp only [List.length_cons] at hl
        dsimp only
        cases ha : takeArgs 0 [] ts' with
        | none => rfl
        | some c =>
          obtain ⟨as, rest⟩ := c
          obtain ⟨h1, h2⟩ := takeArgs_len _ _ _ _ _ ha
          dsimp only
          rw [mapM_congr' (g := expandGo M m) (fun a ha => by
            have := h2 a ha
            simp at this
            exact ih a n m (by omega) (by omega) (by omega)), ih rest n m (by omega) (by omega) (by omega)]

theorem expand_nil (M : String → Option XMacro) : expand M [] = some [] := rfl

theorem expand_cons {M : String → Option XMacro} {t : Tok} {ts : List Tok} (h : callOf M (t :: ts) = none) :
    expand M (t :: ts) = (expand M ts).map fun r => .t t :: r := by
  show expandGo M (ts.length + 1) (t :: ts) = _
  rw [expandGo, h]
  rfl

theorem expand_call2 {M : String → Option XMacro} {f x y : String} {body : List XTok} (h : M f = some ⟨[x, y], body⟩)
    {a b rest ts : List Tok} (hargs : takeArgs 0 [] ts = some ([a, b], rest)) {a' b' : List XTok}
    (ha : expand M a = some a') (hb : expand M b = some b') :
    expand M (.id f :: .lpar :: ts) = (expand M rest).map fun r => substToks [(x, a'), (y, b')] body ++ r := by
  obtain ⟨h1, h2⟩ := takeArgs_len _ _ _ _ _ hargs
  have la := h2 a (by simp)
  have lb := h2 b (by simp)
  simp only [List.length_nil, Nat.zero_add] at la lb
  show expandGo M (ts.length + 1 + 1) _ = _
  rw [expandGo]
  have : callOf M (.id f :: .lpar :: ts) = some (⟨[x, y], body⟩, ts) := by simp [callOf, h]
  rw [this]
  dsimp only
  rw [hargs]
  dsimp only
  rw [if_pos (show [a, b].length = [x, y].length from rfl), expand_fuel M _ rest (by omega)]
  have ea : expandGo M (ts.length + 1) a = some a' := by rw [expand_fuel M _ a (by omega), ha]
  have eb : expandGo M (ts.length + 1) b = some b' := by rw [expand_fuel M _ b (by omega), hb]
  simp only [List.mapM_cons, List.mapM_nil, ea, eb]
  cases expand M rest <;> rfl

mutual
/-- Arguments are not split inside of an expression. -/
theorem takeArgs_parse : ∀ {k p e}, Parse k p e → ∀ d cur rest, takeArgs d cur (p ++ rest) = takeArgs d (cur ++ p) rest
  | _, _, _, .num n => fun d cur rest => by
    rw [List.singleton_append, takeArgs_cons, if_neg (by simp), if_neg (by simp), if_neg (by simp)]
  | _, _, _, .var s => fun d cur rest => by
    rw [List.singleton_append, takeArgs_cons, if_neg (by simp), if_neg (by simp), if_neg (by simp)]
  | _, _, _, .paren (p := p) h => fun d cur rest => by
    rw [List.cons_append, takeArgs_cons, if_pos rfl, List.append_assoc, takeArgs_parse h, List.singleton_append, takeArgs_cons,
      if_neg (by simp), if_pos rfl]
    simp
  | _, _, _, .call0 f => fun d cur rest => by
    rw [List.cons_append, takeArgs_cons, if_neg (by simp), if_neg (by simp), if_neg (by simp), List.cons_append, takeArgs_cons,
      if_pos rfl, List.singleton_append, takeArgs_cons, if_neg (by simp), if_pos rfl]
    simp
  | _, _, _, .call (p := p) h => fun d cur rest => by
    rw [List.cons_append, takeArgs_cons, if_neg (by simp), if_neg (by simp), if_neg (by simp), List.cons_append, takeArgs_cons,
      if_pos rfl, List.append_assoc p, takeArgs_args h, List.singleton_append, takeArgs_cons, if_neg (by simp), if_pos rfl]
    simp
  | _, _, _, .neg h => fun d cur rest => by
    rw [List.cons_append, takeArgs_cons, if_neg (by simp), if_neg (by simp), if_neg (by simp), takeArgs_parse h]
    simp
  | _, _, _, .lift _ h => takeArgs_parse h
  | _, _, _, .bin (t := t) ht _ h1 h2 => fun d cur rest => by
    rw [List.append_assoc, takeArgs_parse h1, List.cons_append, takeArgs_cons, if_neg (by rintro rfl; simp [Tok.bop] at ht),
      if_neg (by rintro rfl; simp [Tok.bop] at ht), if_neg (by
        simp only [Bool.and_eq_true, decide_eq_true_eq, not_and]
        rintro rfl; simp [Tok.bop] at ht), takeArgs_parse h2]
    simp
theorem takeArgs_args : ∀ {p es}, ParseArgs p es → ∀ d cur rest,
    takeArgs (d + 1) cur (p ++ rest) = takeArgs (d + 1) (cur ++ p) rest
  | _, _, .one h => fun d cur rest => takeArgs_parse h _ _ _
  | _, _, .cons h1 h2 => fun d cur rest => by
    rw [List.append_assoc, takeArgs_parse h1, List.cons_append, takeArgs_cons, if_neg (by simp), if_neg (by simp),
      if_neg (by simp), takeArgs_args h2]
    simp
end

theorem takeArgs_two {p q : List Tok} {a b : CExpr} {k l : Nat} (hp : Parse k p a) (hq : Parse l q b) (rest : List Tok) :
    takeArgs 0 [] (p ++ .comma :: (q ++ .rpar :: rest)) = some ([p, q], rest) := by
  rw [takeArgs_parse hp, takeArgs_cons, if_neg (by simp), if_neg (by simp), if_pos (by simp), takeArgs_parse hq, takeArgs_cons,
    if_neg (by simp), if_pos rfl]
  simp

/-! ## The macros of generated programs -/

/-- The macro with a name among the definitions of a text, its body read as tokens. -/
def tableOf (ms : List Macro) (f : String) : Option XMacro :=
  match ms.find? (fun m => m.name == f.toList) with
  | some ⟨_, some ps, body⟩ => (xlex body).map fun b => ⟨ps.map String.ofList, b⟩
  | _ => none

/-- The macros that every callable or compilable program defines. -/
def table : String → Option XMacro := tableOf (defs macros)

/-- A parenthesised name. -/
def par (x : String) : List XTok := [.t .lpar, .t (.id x), .t .rpar]

def floordBody : List XTok :=
  [.t .lpar, .t .lpar] ++ par "n" ++ [.lt, .t (.num 0), .t .rpar, .quest, .t .minus, .t .lpar, .t .lpar, .t .minus] ++
    par "n" ++ [.t .plus] ++ par "d" ++ [.t .minus, .t (.num 1), .t .rpar, .t .slash] ++ par "d" ++ [.t .rpar, .colon] ++
    par "n" ++ [.t .slash] ++ par "d" ++ [.t .rpar]

def ceildBody : List XTok :=
  [.t .lpar, .t .lpar] ++ par "n" ++ [.lt, .t (.num 0), .t .rpar, .quest, .t .minus, .t .lpar, .t .lpar, .t .minus] ++
    par "n" ++ [.t .rpar, .t .slash] ++ par "d" ++ [.t .rpar, .colon, .t .lpar] ++
    par "n" ++ [.t .plus] ++ par "d" ++ [.t .minus, .t (.num 1), .t .rpar, .t .slash] ++ par "d" ++ [.t .rpar]

def mmBody (t : XTok) : List XTok :=
  [.t .lpar] ++ par "x" ++ [t] ++ par "y" ++ [.quest] ++ par "x" ++ [.colon] ++ par "y" ++ [.t .rpar]

theorem table_floord : table "floord" = some ⟨["n", "d"], floordBody⟩ := by decide +kernel
theorem table_ceild : table "ceild" = some ⟨["n", "d"], ceildBody⟩ := by decide +kernel
theorem table_max : table "max" = some ⟨["x", "y"], mmBody .gt⟩ := by decide +kernel
theorem table_min : table "min" = some ⟨["x", "y"], mmBody .lt⟩ := by decide +kernel

/-- An expression whose tokens are replaced by ones that mean the same. -/
def Good (k : Nat) (p : List Tok) (e : CExpr) : Prop :=
  ∃ p' e', XParse k p' e' ∧ (∀ env, e'.eval env = e.eval env) ∧
    ∀ rest, rest.head? ≠ some .lpar → expand table (p ++ rest) = (expand table rest).map fun r => p' ++ r

theorem Good.expand {k : Nat} {p : List Tok} {e : CExpr} {p' : List XTok}
    (h : ∀ rest, rest.head? ≠ some .lpar → expand table (p ++ rest) = (expand table rest).map fun r => p' ++ r) :
    expand table p = some p' := by
  have := h [] (by simp)
  rw [List.append_nil, expand_nil] at this
  simpa using this

/-- An argument in parentheses. -/
theorem par_parse {p : List XTok} {e : XExpr} (h : XParse 6 p e) {k : Nat} (hk : k ≤ 7) :
    XParse k (.t .lpar :: (p ++ [.t .rpar])) e := (XParse.paren (.lift (by omega) h)).up (by omega) hk

theorem num_parse (n : Nat) {k : Nat} (hk : k ≤ 7) : XParse k [.t (.num n)] (.num n) := (XParse.num n).up (by omega) hk

theorem look_n (p q : List XTok) : List.lookup "n" [("n", p), ("d", q)] = some p := rfl
theorem look_d (p q : List XTok) : List.lookup "d" [("n", p), ("d", q)] = some q := rfl
theorem look_x (p q : List XTok) : List.lookup "x" [("x", p), ("y", q)] = some p := rfl
theorem look_y (p q : List XTok) : List.lookup "y" [("x", p), ("y", q)] = some q := rfl

theorem floord_parse {p q : List XTok} {a b : XExpr} (hp : XParse 6 p a) (hq : XParse 6 q b) :
    ∃ e, XParse 0 (substToks [("n", p), ("d", q)] floordBody) e ∧
      ∀ env, e.eval env = floord (a.eval env) (b.eval env) := by
  have h1 : XParse 6 _ _ := (XParse.paren (XParse.up (.bin (t := .lt) (o := .lt) (k := 3) rfl rfl
    (par_parse hp (by omega)) (num_parse 0 (by omega))) (by omega) (by omega))).up (by omega) (by omega)
  have h2 : XParse 7 _ _ := XParse.up (.bin (t := .t .slash) (o := .b .div) (k := 1) rfl rfl
    ((XParse.paren (XParse.up (.bin (t := .t .minus) (o := .b .sub) (k := 2) rfl rfl
      (.bin (t := .t .plus) (o := .b .add) (k := 2) rfl rfl
        (XParse.up (.neg (par_parse hp (by omega))) (by omega) (by omega)) (par_parse hq (by omega)))
      (num_parse 1 (by omega))) (by omega) (by omega))).up (by omega) (by omega)) (par_parse hq (by omega)))
      (by omega) (by omega)
  have h3 : XParse 7 _ _ := XParse.up (.neg ((XParse.paren h2).up (by omega) (by omega))) (by omega) (by omega)
  have h4 : XParse 7 _ _ := XParse.up (.bin (t := .t .slash) (o := .b .div) (k := 1) rfl rfl
    (par_parse hp (by omega)) (par_parse hq (by omega))) (by omega) (by omega)
  have h := XParse.paren (.cond h1 h3 h4)
  refine ⟨_, by simpa [substToks, floordBody, par, look_n, look_d] using h, fun env => ?_⟩
  simp only [XExpr.eval, XOp.eval, BOp.eval, floord, ofBool, Nat.cast_zero, Nat.cast_one]
  by_cases hn : a.eval env < 0 <;> simp [hn]

theorem ceild_parse {p q : List XTok} {a b : XExpr} (hp : XParse 6 p a) (hq : XParse 6 q b) :
    ∃ e, XParse 0 (substToks [("n", p), ("d", q)] ceildBody) e ∧
      ∀ env, e.eval env = ceild (a.eval env) (b.eval env) := by
  have h1 : XParse 6 _ _ := (XParse.paren (XParse.up (.bin (t := .lt) (o := .lt) (k := 3) rfl rfl
    (par_parse hp (by omega)) (num_parse 0 (by omega))) (by omega) (by omega))).up (by omega) (by omega)
  have h2 : XParse 7 _ _ := XParse.up (.bin (t := .t .slash) (o := .b .div) (k := 1) rfl rfl
    ((XParse.paren (XParse.up (.neg (par_parse hp (by omega))) (by omega) (by omega))).up (by omega) (by omega))
    (par_parse hq (by omega))) (by omega) (by omega)
  have h3 : XParse 7 _ _ := XParse.up (.neg ((XParse.paren h2).up (by omega) (by omega))) (by omega) (by omega)
  have h4 : XParse 7 _ _ := XParse.up (.bin (t := .t .slash) (o := .b .div) (k := 1) rfl rfl
    ((XParse.paren (XParse.up (.bin (t := .t .minus) (o := .b .sub) (k := 2) rfl rfl
      (.bin (t := .t .plus) (o := .b .add) (k := 2) rfl rfl
        (par_parse hp (by omega)) (par_parse hq (by omega)))
      (num_parse 1 (by omega))) (by omega) (by omega))).up (by omega) (by omega)) (par_parse hq (by omega)))
      (by omega) (by omega)
  have h := XParse.paren (.cond h1 h3 h4)
  refine ⟨_, by simpa [substToks, ceildBody, par, look_n, look_d] using h, fun env => ?_⟩
  simp only [XExpr.eval, XOp.eval, BOp.eval, ceild, ofBool, Nat.cast_zero, Nat.cast_one]
  by_cases hn : a.eval env < 0 <;> simp [hn]

theorem mm_parse {p q : List XTok} {a b : XExpr} (hp : XParse 6 p a) (hq : XParse 6 q b) {t : XTok} {o : XOp}
    (ht : XTok.bop t = some o) (hl : o.level = 4) (hid : substToks [("x", p), ("y", q)] [t] = [t]) :
    XParse 0 (substToks [("x", p), ("y", q)] (mmBody t)) (.cond (.bin o a b) a b) := by
  have h1 : XParse 6 _ _ := XParse.up (.bin (t := t) (o := o) (k := 3) ht hl
    (par_parse hp (by omega)) (par_parse hq (by omega))) (by omega) (by omega)
  have h := XParse.paren (.cond h1 (par_parse hp (k := 7) (by omega)) (par_parse hq (k := 7) (by omega)))
  have e : ∀ x y, substToks [("x", p), ("y", q)] (x ++ y) = substToks [("x", p), ("y", q)] x ++ substToks [("x", p), ("y", q)] y := by
    intro x y
    simp [substToks]
  unfold mmBody
  rw [e, e, e, e, e, e, e, e, hid]
  simpa [substToks, par, look_x, look_y] using h

/-- A call of one of the macros. -/
theorem good_call {f : String} (hf : macroName f = true) {p q : List Tok} {a b : CExpr} (hp : Parse 6 p a)
    (hq : Parse 6 q b) (ga : Good 6 p a) (gb : Good 6 q b) :
    Good 0 (.id f :: .lpar :: ((p ++ .comma :: q) ++ [.rpar])) (.call f [a, b]) := by
  obtain ⟨p', a', a1, a2, a3⟩ := ga
  obtain ⟨q', b', b1, b2, b3⟩ := gb
  have main : ∀ {x y : String} {body : List XTok} {e : XExpr}, table f = some ⟨[x, y], body⟩ →
      XParse 0 (substToks [(x, p'), (y, q')] body) e →
      (∀ env, e.eval env = macroVal f [a'.eval env, b'.eval env]) →
      Good 0 (.id f :: .lpar :: ((p ++ .comma :: q) ++ [.rpar])) (.call f [a, b]) := by
    intro x y body e ht hx hv
    refine ⟨_, e, hx, fun env => ?_, fun rest _ => ?_⟩
    · rw [hv, a2, b2]
      simp [CExpr.eval, CExpr.evals]
    · have := expand_call2 (M := table) ht (takeArgs_two hp hq rest) (Good.expand (k := 6) (e := a) a3)
        (Good.expand (k := 6) (e := b) b3)
      simpa using this
  unfold macroName at hf
  simp only [Bool.or_eq_true, beq_iff_eq] at hf
  rcases hf with ((rfl | rfl) | rfl) | rfl
  · obtain ⟨e, h1, h2⟩ := floord_parse a1 b1
    exact main table_floord h1 (fun env => by rw [h2]; rfl)
  · obtain ⟨e, h1, h2⟩ := ceild_parse a1 b1
    exact main table_ceild h1 (fun env => by rw [h2]; simp [macroVal])
  · refine main table_min (mm_parse a1 b1 rfl rfl rfl) (fun env => ?_)
    simp only [XExpr.eval, XOp.eval, ofBool, macroVal, cmin]
    by_cases h : a'.eval env < b'.eval env <;> simp [h]
  · refine main table_max (mm_parse a1 b1 rfl rfl rfl) (fun env => ?_)
    simp only [XExpr.eval, XOp.eval, ofBool, macroVal, cmax]
    by_cases h : b'.eval env < a'.eval env <;> simp [h]

/-- Arguments that are replaced well. -/
def GoodArgs : List Tok → List CExpr → Prop
  | _, [] => False
  | p, [e] => Parse 6 p e ∧ Good 6 p e
  | p, e :: es => ∃ q r, p = q ++ .comma :: r ∧ (Parse 6 q e ∧ Good 6 q e) ∧ GoodArgs r es

theorem callOf_none {M : String → Option XMacro} {t : Tok} {ts : List Tok} (h : (∀ s, t ≠ .id s) ∨ ts.head? ≠ some .lpar) :
    callOf M (t :: ts) = none := by
  unfold callOf
  split
  · rename_i f ts' he
    simp only [List.cons.injEq] at he
    rcases h with h | h
    · exact absurd he.1 (h f)
    · rw [he.2] at h
      simp at h
  · rfl

mutual
theorem parse_good : ∀ {k p e}, Parse k p e → onlyMacros e = true → Good k p e
  | _, _, _, .num n => fun _ => ⟨_, _, .num n, fun _ => rfl, fun rest _ => expand_cons (callOf_none (Or.inl (by simp)))⟩
  | _, _, _, .var s => fun _ => ⟨_, _, .var s, fun _ => rfl, fun rest h => expand_cons (callOf_none (Or.inr h))⟩
  | _, _, _, .paren h => fun hm => by
    obtain ⟨p', e', h1, h2, h3⟩ := parse_good h hm
    refine ⟨_, e', .paren (.lift (by omega) h1), h2, fun rest _ => ?_⟩
    rw [List.cons_append, expand_cons (callOf_none (Or.inl (by simp))), List.append_assoc, h3 _ (by simp),
      List.singleton_append, expand_cons (callOf_none (Or.inl (by simp)))]
    cases expand table rest <;> simp
  | _, _, _, .call0 f => fun hm => by simp [onlyMacros] at hm
  | _, _, _, .call (es := es) h => fun hm => by
    simp only [onlyMacros, Bool.and_eq_true, beq_iff_eq] at hm
    obtain ⟨⟨hf, hl⟩, hm⟩ := hm
    have hg := args_good h hm
    match es, hl, hg with
    | [a, b], _, hg =>
      obtain ⟨q, r, rfl, ⟨g1, g2⟩, g3, g4⟩ := hg
      exact good_call hf g1 g3 g2 g4
  | _, _, _, .neg h => fun hm => by
    obtain ⟨p', e', h1, h2, h3⟩ := parse_good h (by simpa [onlyMacros] using hm)
    refine ⟨_, .neg e', .neg h1, fun env => by simp [XExpr.eval, CExpr.eval, h2], fun rest hr => ?_⟩
    rw [List.cons_append, expand_cons (callOf_none (Or.inl (by simp))), h3 _ hr]
    cases expand table rest <;> simp
  | _, _, _, .lift hk h => fun hm => by
    obtain ⟨p', e', h1, h2, h3⟩ := parse_good h hm
    exact ⟨p', e', .lift (by omega) h1, h2, h3⟩
  | _, _, _, .bin (t := t) (o := o) ht hl h1 h2 => fun hm => by
    simp only [onlyMacros, Bool.and_eq_true] at hm
    obtain ⟨p', a', a1, a2, a3⟩ := parse_good h1 hm.1
    obtain ⟨q', b', b1, b2, b3⟩ := parse_good h2 hm.2
    refine ⟨_, .bin (.b o) a' b', .bin (t := .t t) (by simp [XTok.bop, ht]) hl a1 b1,
      fun env => by simp [XExpr.eval, CExpr.eval, XOp.eval, a2, b2], fun rest hr => ?_⟩
    rw [List.append_assoc, a3 _ (by
        intro h
        simp only [List.cons_append, List.head?_cons, Option.some.injEq] at h
        rw [h] at ht
        simp [Tok.bop] at ht),
      List.cons_append, expand_cons (callOf_none (Or.inl (by
        rintro s rfl
        simp [Tok.bop] at ht))), b3 _ hr]
    cases expand table rest <;> simp
theorem args_good : ∀ {p es}, ParseArgs p es → allMacros es = true → GoodArgs p es
  | _, _, .one h => fun hm => ⟨h, parse_good h (by simpa [allMacros] using hm)⟩
  | _, _, .cons (e := e) (es := es) h1 h2 => fun hm => by
    simp only [allMacros, Bool.and_eq_true] at hm
    have g2 := args_good h2 hm.2
    match es, g2 with
    | e2 :: es, g2 => exact ⟨_, _, rfl, ⟨h1, parse_good h1 hm.1⟩, g2⟩
end

/-- C65.  In an expression of the generated code, replacing the macros by the definitions in front of the code
gives an expression of C without macros, which can be read in one way only, and which has the value of the
expression that was printed. -/
theorem C65_macros (e : Expr) (h : okE e = true) :
    ∃ ts ts' x, lex (exprText e) = some ts ∧ expand table ts = some ts' ∧ XParse 7 ts' x ∧
      (∀ x', XParse 7 ts' x' → x' = x) ∧ ∀ env, x.eval env = e.eval env := by
  obtain ⟨ts, c, h1, h2, h3, h4⟩ := C35_expression e h
  obtain ⟨c', g1, g2, g3⟩ := expr_parse_macros h
  have hts : lex (exprText e) = some (printExpr e) := by
    have hg := okE_glue h
    have hs : Verif.PLex.sepFrom none (toks (printExpr e) ++ []) :=
      Verif.PStmt.G.toks hg (fun a ha => by cases ha) (fun a _ => trivial)
    rw [List.append_nil] at hs
    have := Verif.PLex.lex_text _ none hs
    rwa [tokens_toks] at this
  obtain ⟨p', e', x1, x2, x3⟩ := parse_good g1 g3
  exact ⟨_, p', e', hts, Good.expand (k := 6) (e := c') x3, .lift (by omega) x1,
    fun x' hx => parse_unique hx (.lift (by omega) x1), fun env => (x2 env).trans (g2 env)⟩

theorem defs_macros : defs macros = stdDefs := by
  have := macros_defs []
  rwa [List.append_nil, show defs [] = [] from rfl, List.append_nil] at this

theorem tableOf_first {pre post : List Macro} {f : String} (hf : macroName f = true)
    (hpre : ∀ m ∈ pre, m.name ≠ f.toList) : tableOf (pre ++ (defs macros ++ post)) f = table f := by
  have h : (defs macros).find? (fun m => m.name == f.toList) ≠ none := by
    rw [defs_macros]
    unfold macroName at hf
    simp only [Bool.or_eq_true, beq_iff_eq] at hf
    rcases hf with ((rfl | rfl) | rfl) | rfl <;> decide
  unfold table tableOf
  rw [List.find?_append, List.find?_eq_none.2 (fun m hm => by simpa using hpre m hm), List.find?_append]
  cases hd : (defs macros).find? (fun m => m.name == f.toList) with
  | none => exact absurd hd h
  | some m => rfl

/-- The four macros of a callable program are these, whatever its names and statements are. -/
theorem C65_callable (p : Prog) (hp : Usable p) (rest : List Char) {f : String} (hf : macroName f = true) :
    tableOf (defs (callablePreamble p ++ rest)) f = table f := by
  rw [C56_callable_defs p hp rest, List.append_assoc, ← defs_macros]
  exact tableOf_first (pre := []) hf (by simp)

/-- The four macros of a compilable program are these, whatever its names and statements are. -/
theorem C65_compilable (p : Prog) (hp : Usable p) (v : Int) (rest : List Char) {f : String} (hf : macroName f = true) :
    tableOf (defs (compilablePreamble p v ++ rest)) f = table f := by
  rw [C56_compilable_defs p hp v rest, List.append_assoc, List.append_assoc, ← defs_macros]
  refine tableOf_first hf fun m hm h => ?_
  obtain ⟨i, _, rfl⟩ := List.mem_map.1 hm
  have : f.toList.head? = some 'P' := by rw [← h]; rfl
  unfold macroName at hf
  simp only [Bool.or_eq_true, beq_iff_eq] at hf
  rcases hf with ((rfl | rfl) | rfl) | rfl <;> exact absurd this (by decide)

/-- An expression with all four macros inside of each other. -/
def exM : Expr := .red .max [.bin .fdiv (.red .sum [.term (-2) (.name "i"), .term 1 (.name "N"), .cst (-3)]) 4,
    .bin .cdiv (.red .min [.name "i", .term 3 (.name "j")]) 2]

example : exprText exM = "max(floord(-2*i+N-3,4),ceild(min(i,3*j),2))".toList ∧ okE exM = true := by decide

-- The macros are replaced from the inside out.
example : (expand table [.id "max", .lpar, .id "min", .lpar, .id "i", .comma, .id "j", .rpar, .comma, .num 2,
    .rpar]).map List.length = some 49 := by decide +kernel

end Verif.Props.Macro
