import Verif.Model.FText
import Verif.Model.PText
import Verif.Lemmas.FReal
import Verif.Lemmas.PGlue
import Verif.Lemmas.PStmt
import Verif.Lemmas.IntOps
import Verif.Props.PText
import Mathlib.Data.Int.ModEq

/-!
# Fortran text of expressions
-/

namespace Verif.FExpr
open Verif.CText Verif.Clast Verif.ClastGen Verif.PPrint Verif.PLex Verif.PExpr Verif.PGlue Verif.FText Verif.FReal
open Verif.IntOps Verif.Props.PPrint

/-! ## The grammar is deterministic -/

mutual
theorem prim_det : ∀ {ts e r e' r'}, Prim ts e r → Prim ts e' r' → e = e' ∧ r = r'
  | _, _, _, _, _, .num _ _, h => by cases h; exact ⟨rfl, rfl⟩
  | _, _, _, _, _, .var _ _ h1, h => by
    cases h with
    | var => exact ⟨rfl, rfl⟩
    | call => simp at h1
  | _, _, _, _, _, .paren h1, h => by
    cases h with
    | paren h2 =>
      obtain ⟨a, b⟩ := exp_det h1 h2
      simp at b
      exact ⟨a, b⟩
  | _, _, _, _, _, .call h1, h => by
    cases h with
    | var _ _ h2 => simp at h2
    | call h2 =>
      obtain ⟨a, b⟩ := args_det h1 h2
      simp at b
      exact ⟨by rw [a], b⟩
termination_by structural _ _ _ _ _ h => h
theorem prod_det : ∀ {ts e r e' r'}, Prod ts e r → Prod ts e' r' → e = e' ∧ r = r'
  | _, _, _, _, _, .mk h1 h2, .mk g1 g2 => by
    obtain ⟨rfl, rfl⟩ := prim_det h1 g1
    exact prodRest_det h2 g2
termination_by structural _ _ _ _ _ h => h
theorem prodRest_det : ∀ {a ts e r e' r'}, ProdRest a ts e r → ProdRest a ts e' r' → e = e' ∧ r = r'
  | _, _, _, _, _, _, .stop h1 h2, h => by
    cases h with
    | stop => exact ⟨rfl, rfl⟩
    | mul => simp at h1
    | div => simp at h2
  | _, _, _, _, _, _, .mul h1 h2, h => by
    cases h with
    | stop g1 => simp at g1
    | mul g1 g2 => obtain ⟨rfl, rfl⟩ := prim_det h1 g1; exact prodRest_det h2 g2
  | _, _, _, _, _, _, .div h1 h2, h => by
    cases h with
    | stop _ g1 => simp at g1
    | div g1 g2 => obtain ⟨rfl, rfl⟩ := prim_det h1 g1; exact prodRest_det h2 g2
termination_by structural _ _ _ _ _ _ h => h
theorem exp_det : ∀ {ts e r e' r'}, Exp ts e r → Exp ts e' r' → e = e' ∧ r = r'
  | _, _, _, _, _, .neg h1 h2, h => by
    cases h with
    | neg g1 g2 => obtain ⟨rfl, rfl⟩ := prod_det h1 g1; exact sumRest_det h2 g2
    | pos g1 g2 => cases g1 with | mk g _ => cases g
  | _, _, _, _, _, .pos h1 h2, h => by
    cases h with
    | neg g1 g2 => cases h1 with | mk g _ => cases g
    | pos g1 g2 => obtain ⟨rfl, rfl⟩ := prod_det h1 g1; exact sumRest_det h2 g2
termination_by structural _ _ _ _ _ h => h
theorem sumRest_det : ∀ {a ts e r e' r'}, SumRest a ts e r → SumRest a ts e' r' → e = e' ∧ r = r'
  | _, _, _, _, _, _, .stop h1 h2, h => by
    cases h with
    | stop => exact ⟨rfl, rfl⟩
    | add => simp at h1
    | sub => simp at h2
  | _, _, _, _, _, _, .add h1 h2, h => by
    cases h with
    | stop g1 => simp at g1
    | add g1 g2 => obtain ⟨rfl, rfl⟩ := prod_det h1 g1; exact sumRest_det h2 g2
  | _, _, _, _, _, _, .sub h1 h2, h => by
    cases h with
    | stop _ g1 => simp at g1
    | sub g1 g2 => obtain ⟨rfl, rfl⟩ := prod_det h1 g1; exact sumRest_det h2 g2
termination_by structural _ _ _ _ _ _ h => h
theorem args_det : ∀ {ts es r es' r'}, Args ts es r → Args ts es' r' → es = es' ∧ r = r'
  | _, _, _, _, _, .one h1 h2, h => by
    cases h with
    | one g1 g2 => obtain ⟨a, b⟩ := exp_det h1 g1; exact ⟨by rw [a], b⟩
    | cons g1 g2 => obtain ⟨a, b⟩ := exp_det h1 g1; rw [b] at h2; simp at h2
  | _, _, _, _, _, .cons h1 h2, h => by
    cases h with
    | one g1 g2 => obtain ⟨a, b⟩ := exp_det h1 g1; rw [← b] at g2; simp at g2
    | cons g1 g2 =>
      obtain ⟨a, b⟩ := exp_det h1 g1
      simp at b
      subst b
      obtain ⟨c, d⟩ := args_det h2 g2
      exact ⟨by rw [a, c], d⟩
termination_by structural _ _ _ _ _ h => h
end

/-! ## Recognised token lists -/

/-- A primary, whatever follows. -/
def IsPrim (ts : List Tok) (t : CExpr) : Prop := ∀ rest, rest.head? ≠ some .lpar → Prim (ts ++ rest) t rest

/-- A product, with further factors. -/
def IsProd (ts : List Tok) (t : CExpr) : Prop :=
  ∀ rest, rest.head? ≠ some .lpar → ∀ e r, ProdRest t rest e r → Prod (ts ++ rest) e r

/-- A sum, with further terms. -/
def IsExp (ts : List Tok) (t : CExpr) : Prop :=
  ∀ rest, rest.head? ≠ some .lpar → rest.head? ≠ some .star → rest.head? ≠ some .slash →
    ∀ e r, SumRest t rest e r → Exp (ts ++ rest) e r

theorem IsPrim.prod {ts : List Tok} {t : CExpr} (h : IsPrim ts t) : IsProd ts t :=
  fun rest hr _ _ hp => .mk (h rest hr) hp

theorem IsProd.whole {ts : List Tok} {t : CExpr} (h : IsProd ts t) {rest : List Tok}
    (h1 : rest.head? ≠ some .lpar) (h2 : rest.head? ≠ some .star) (h3 : rest.head? ≠ some .slash) :
    Prod (ts ++ rest) t rest := h rest h1 _ _ (.stop h2 h3)

theorem IsProd.exp {ts : List Tok} {t : CExpr} (h : IsProd ts t) : IsExp ts t :=
  fun _ h1 h2 h3 _ _ hs => .pos (h.whole h1 h2 h3) hs

theorem IsProd.neg {ts : List Tok} {t : CExpr} (h : IsProd ts t) : IsExp (.minus :: ts) (.neg t) :=
  fun _ h1 h2 h3 _ _ hs => .neg (h.whole h1 h2 h3) hs

theorem IsProd.mul {p q : List Tok} {a b : CExpr} (h : IsProd p a) (g : IsPrim q b) :
    IsProd (p ++ .star :: q) (.bin .mul a b) := by
  intro rest h1 e r hp
  rw [List.append_assoc, List.cons_append]
  exact h _ (by simp) _ _ (.mul (g rest h1) hp)

theorem IsProd.div {p q : List Tok} {a b : CExpr} (h : IsProd p a) (g : IsPrim q b) :
    IsProd (p ++ .slash :: q) (.bin .div a b) := by
  intro rest h1 e r hp
  rw [List.append_assoc, List.cons_append]
  exact h _ (by simp) _ _ (.div (g rest h1) hp)

theorem IsExp.add {p q : List Tok} {a b : CExpr} (h : IsExp p a) (g : IsProd q b) :
    IsExp (p ++ .plus :: q) (.bin .add a b) := by
  intro rest h1 h2 h3 e r hp
  rw [List.append_assoc, List.cons_append]
  exact h _ (by simp) (by simp) (by simp) _ _ (.add (g.whole h1 h2 h3) hp)

theorem IsExp.sub {p q : List Tok} {a b : CExpr} (h : IsExp p a) (g : IsProd q b) :
    IsExp (p ++ .minus :: q) (.bin .sub a b) := by
  intro rest h1 h2 h3 e r hp
  rw [List.append_assoc, List.cons_append]
  exact h _ (by simp) (by simp) (by simp) _ _ (.sub (g.whole h1 h2 h3) hp)

/-- Tokens that end an expression. -/
def ends (r : List Tok) : Prop := r = [] ∨ (∃ q, r = .rpar :: q) ∨ ∃ q, r = .comma :: q

theorem IsExp.whole {ts : List Tok} {t : CExpr} (h : IsExp ts t) {rest : List Tok} (hr : ends rest) :
    Exp (ts ++ rest) t rest := by
  rcases hr with rfl | ⟨q, rfl⟩ | ⟨q, rfl⟩ <;>
    exact h _ (by simp) (by simp) (by simp) _ _ (.stop (by simp) (by simp))

theorem IsExp.paren {ts : List Tok} {t : CExpr} (h : IsExp ts t) : IsPrim (.lpar :: (ts ++ [.rpar])) t := by
  intro rest _
  rw [List.cons_append, List.append_assoc]
  exact .paren (h.whole (Or.inr (Or.inl ⟨rest, rfl⟩)))

theorem IsExp.call1 {ts : List Tok} {t : CExpr} (f : String) (h : IsExp ts t) :
    IsPrim (.id f :: .lpar :: (ts ++ [.rpar])) (.call f [t]) := by
  intro rest _
  rw [List.cons_append, List.cons_append, List.append_assoc]
  exact .call (.one (h.whole (Or.inr (Or.inl ⟨rest, rfl⟩))) (by simp))

theorem IsPrim.num (n : Nat) : IsPrim [.num n] (.num n) := fun rest _ => .num n rest

theorem IsPrim.var (s : String) : IsPrim [.id s] (.var s) := fun rest h => .var s rest h

/-! ## Values -/

/-- The environment of the clast for one of Fortran. -/
def cenv (env : String → Int) : Env := fun s => env (fold s)

/-- Under the condition `S` the tree has the value `f`. -/
def Vl (t : CExpr) (S : Nat → Env → Prop) (f : Env → Int) : Prop :=
  ∀ p rnd env, Nearest p rnd → S p (cenv env) → value rnd env t = some (.int (f (cenv env)))

theorem Vl.mono {t : CExpr} {S S' : Nat → Env → Prop} {f g : Env → Int} (h : Vl t S f)
    (hs : ∀ p env, S' p env → S p env) (hf : ∀ env, f env = g env) : Vl t S' g := by
  intro p rnd env hn h'
  rw [h p rnd env hn (hs _ _ h'), hf]

theorem Vl.neg {t : CExpr} {S : Nat → Env → Prop} {f : Env → Int} (h : Vl t S f) :
    Vl (.neg t) S (fun env => - f env) := by
  intro p rnd env hn h'
  simp only [value, h p rnd env hn h']

theorem Vl.of_neg {t : CExpr} {S : Nat → Env → Prop} {f : Env → Int} (h : Vl (.neg t) S f) :
    Vl t S (fun env => - f env) := by
  intro p rnd env hn h'
  have := h p rnd env hn h'
  simp only [value] at this
  cases hv : value rnd env t with
  | none => rw [hv] at this; cases this
  | some v =>
    cases v with
    | real x => rw [hv] at this; cases this
    | int a =>
      rw [hv] at this
      simp only [Option.some.injEq, Val.int.injEq] at this ⊢
      omega

/-! ## Pieces -/

/-- As `PGlue.G`, for tokens and spaces. -/
def GP (b : Bool) (ps : List Piece) : Prop :=
  ∀ prev rest, (∀ a, prev = some a → pre a = true ∧ (b = true → a ≠ .minus)) →
    (∀ a, post a = true → sepFrom (some a) rest) → sepFrom prev (ps ++ rest)

theorem GP.of_toks {b : Bool} {ts : List Tok} (h : G b ts) : GP b (toks ts) := h

theorem GP.any {b : Bool} {ps : List Piece} (h : GP b ps) : GP true ps :=
  fun prev rest h1 h2 => h prev rest (fun a ha => ⟨(h1 a ha).1, fun _ => (h1 a ha).2 rfl⟩) h2

theorem GP.minus {ps : List Piece} (h : GP false ps) : GP true (.tok .minus :: ps) := by
  intro prev rest h1 h2
  refine ⟨rfl, fun a ha => sep_pre_minus (h1 a ha).1 ((h1 a ha).2 rfl), ?_⟩
  exact h _ rest (fun a ha => by cases ha; exact ⟨rfl, fun hb => by cases hb⟩) h2

theorem GP.op {b c : Bool} {p q : List Piece} {t : Tok} (hp : GP b p) (hq : GP c q) (ha : after t = true)
    (hpre : pre t = true) (hm : c = true → t ≠ .minus) : GP b (p ++ .tok t :: q) := by
  intro prev rest h1 h2
  rw [List.append_assoc, List.cons_append]
  apply hp prev _ h1
  intro a hpa
  refine ⟨after_ok ha, fun a' ha' => by cases ha'; exact sep_after hpa ha, ?_⟩
  exact hq _ rest (fun a ha => by cases ha; exact ⟨hpre, hm⟩) h2

/-- An operand after a comma and a space. -/
theorem GP.comma_space {b c : Bool} {p q : List Piece} (hp : GP b p) (hq : GP c q) :
    GP b (p ++ .tok .comma :: .ws [' '] :: q) := by
  intro prev rest h1 h2
  rw [List.append_assoc, List.cons_append, List.cons_append]
  apply hp prev _ h1
  intro a hpa
  refine ⟨rfl, fun a' ha' => by cases ha'; exact sep_after hpa rfl, by simp [isSpace], ?_⟩
  exact hq none rest (fun a ha => by cases ha) h2

theorem GP.paren {b : Bool} {ps : List Piece} (h : GP b ps) : GP false (.tok .lpar :: (ps ++ [.tok .rpar])) := by
  intro prev rest h1 h2
  refine ⟨rfl, fun a ha => sep_pre_lpar (h1 a ha).1, ?_⟩
  show sepFrom (some .lpar) ((ps ++ [.tok .rpar]) ++ rest)
  rw [List.append_assoc]
  apply h
  · intro a ha
    cases ha
    exact ⟨rfl, fun _ => by simp⟩
  · intro a hpa
    exact ⟨rfl, fun a' ha' => by cases ha'; exact sep_after hpa rfl, h2 _ rfl⟩

theorem GP.call {b : Bool} {f : String} {ps : List Piece} (hf : ident f = true) (h : GP b ps) :
    GP false (.tok (.id f) :: .tok .lpar :: (ps ++ [.tok .rpar])) := by
  intro prev rest h1 h2
  refine ⟨hf, fun a ha => sep_op_word (pre_word (h1 a ha).1) rfl hf, rfl, fun a ha => by cases ha; rfl, ?_⟩
  show sepFrom (some .lpar) ((ps ++ [.tok .rpar]) ++ rest)
  rw [List.append_assoc]
  apply h
  · intro a ha
    cases ha
    exact ⟨rfl, fun _ => by simp⟩
  · intro a hpa
    exact ⟨rfl, fun a' ha' => by cases ha'; exact sep_after hpa rfl, h2 _ rfl⟩

theorem GP.whole {b : Bool} {ps : List Piece} (h : GP b ps) : sepFrom none ps := by
  have := h none [] (fun a ha => by cases ha) (fun _ _ => trivial)
  simpa using this

/-! ## Classes of text -/

/-- Class 0: a primary; 1: a product; 2: a minus sign and a product; 3: an expression. -/
def Good (k : Nat) (ps : List Piece) (S : Nat → Env → Prop) (f : Env → Int) : Prop :=
  match k with
  | 0 => GP false ps ∧ ∃ t, IsPrim (tokens ps) t ∧ Vl t S f
  | 1 => GP false ps ∧ ∃ t, IsProd (tokens ps) t ∧ Vl t S f
  | 2 => ∃ qs t, ps = .tok .minus :: qs ∧ GP false qs ∧ IsProd (tokens qs) t ∧ Vl (.neg t) S f
  | 3 => GP true ps ∧ ∃ t, IsExp (tokens ps) t ∧ Vl t S f
  | _ => True

theorem Good.mono {k : Nat} {ps : List Piece} {S S' : Nat → Env → Prop} {f g : Env → Int} (h : Good k ps S f)
    (hs : ∀ p env, S' p env → S p env) (hf : ∀ env, f env = g env) : Good k ps S' g := by
  match k, h with
  | 0, ⟨h1, t, h2, h3⟩ => exact ⟨h1, t, h2, h3.mono hs hf⟩
  | 1, ⟨h1, t, h2, h3⟩ => exact ⟨h1, t, h2, h3.mono hs hf⟩
  | 2, ⟨q, t, h0, h1, h2, h3⟩ => exact ⟨q, t, h0, h1, h2, h3.mono hs hf⟩
  | 3, ⟨h1, t, h2, h3⟩ => exact ⟨h1, t, h2, h3.mono hs hf⟩
  | _ + 4, _ => trivial

theorem Good.prod {k : Nat} {ps : List Piece} {S : Nat → Env → Prop} {f : Env → Int} (h : Good k ps S f)
    (hk : k ≤ 1) : Good 1 ps S f := by
  match k, h, hk with
  | 0, ⟨h1, t, h2, h3⟩, _ => exact ⟨h1, t, h2.prod, h3⟩
  | 1, h, _ => exact h

theorem Good.exp {k : Nat} {ps : List Piece} {S : Nat → Env → Prop} {f : Env → Int} (h : Good k ps S f)
    (hk : k ≤ 3) : Good 3 ps S f := by
  match k, h, hk with
  | 0, ⟨h1, t, h2, h3⟩, _ => exact ⟨h1.any, t, h2.prod.exp, h3⟩
  | 1, ⟨h1, t, h2, h3⟩, _ => exact ⟨h1.any, t, h2.exp, h3⟩
  | 2, ⟨q, t, h0, h1, h2, h3⟩, _ => subst h0; exact ⟨h1.minus, _, h2.neg, h3⟩
  | 3, h, _ => exact h

theorem tokens_cons (t : Tok) (ps : List Piece) : tokens (.tok t :: ps) = t :: tokens ps := rfl

theorem tokens_app (a b : List Piece) : tokens (a ++ b) = tokens a ++ tokens b := Verif.PStmt.tokens_append a b

theorem Good.num (n : Nat) (S : Nat → Env → Prop) : Good 0 [.tok (.num n)] S (fun _ => n) :=
  ⟨GP.of_toks (G.num n), .num n, IsPrim.num n, fun _ _ _ _ _ => rfl⟩

theorem Good.var {s : String} (hs : ident s = true) (S : Nat → Env → Prop) :
    Good 0 [.tok (.id s)] S (fun env => env s) :=
  ⟨GP.of_toks (ts := [.id s]) (G.word rfl hs), .var s, IsPrim.var s, fun _ _ _ _ _ => rfl⟩

theorem Good.paren {ps : List Piece} {S : Nat → Env → Prop} {f : Env → Int} (h : Good 3 ps S f) :
    Good 0 (.tok .lpar :: (ps ++ [.tok .rpar])) S f := by
  obtain ⟨h1, t, h2, h3⟩ := h
  refine ⟨h1.paren, t, ?_, h3⟩
  rw [tokens_cons, tokens_app]
  exact h2.paren

theorem Good.neg {ps : List Piece} {S : Nat → Env → Prop} {f : Env → Int} (h : Good 1 ps S f) :
    Good 2 (.tok .minus :: ps) S (fun env => - f env) := by
  obtain ⟨h1, t, h2, h3⟩ := h
  exact ⟨ps, t, rfl, h1, h2, h3.neg⟩

theorem Good.mulNum (n : Nat) {ps : List Piece} {S : Nat → Env → Prop} {f : Env → Int} (h : Good 0 ps S f) :
    Good 1 (.tok (.num n) :: .tok .star :: ps) S (fun env => n * f env) := by
  obtain ⟨h1, t, h2, h3⟩ := h
  refine ⟨GP.op (p := [.tok (.num n)]) (t := .star) (GP.of_toks (ts := [.num n]) (G.num n)) h1 rfl rfl
    (fun _ => by simp), .bin .mul (.num n) t, (IsPrim.num n).prod.mul h2, ?_⟩
  intro p rnd env hn hs
  simp [value, h3 p rnd env hn hs, binVal]

theorem Good.divNum {n : Nat} (hn : 0 < n) {ps : List Piece} {S : Nat → Env → Prop} {f : Env → Int}
    (h : Good 1 ps S f) : Good 1 (ps ++ .tok .slash :: [.tok (.num n)]) S (fun env => (f env).tdiv n) := by
  obtain ⟨h1, t, h2, h3⟩ := h
  refine ⟨GP.op (t := .slash) h1 (GP.of_toks (ts := [.num n]) (G.num n)) rfl rfl (fun _ => by simp),
    .bin .div t (.num n), ?_, ?_⟩
  · rw [tokens_app]
    exact h2.div (IsPrim.num n)
  · intro p rnd env hn' hs
    have : ((n : Int) = 0) = False := by simp; omega
    simp [value, h3 p rnd env hn' hs, binVal, this]
    omega

theorem Good.divNeg {n : Nat} (hn : 0 < n) {ps : List Piece} {S : Nat → Env → Prop} {f : Env → Int}
    (h : Good 2 ps S f) : Good 2 (ps ++ .tok .slash :: [.tok (.num n)]) S (fun env => (f env).tdiv n) := by
  obtain ⟨qs, t, rfl, h1, h2, h3⟩ := h
  have : Good 1 qs S (fun env => - f env) := ⟨h1, t, h2, h3.of_neg⟩
  have := ((this.divNum hn).neg).mono (fun _ _ h => h) (g := fun env => (f env).tdiv n)
    (fun env => by rw [Int.neg_tdiv, neg_neg])
  exact this

theorem Good.add {ps qs : List Piece} {S S' : Nat → Env → Prop} {f g : Env → Int} (h : Good 3 ps S f)
    (h' : Good 1 qs S' g) :
    Good 3 (ps ++ .tok .plus :: qs) (fun p env => S p env ∧ S' p env) (fun env => f env + g env) := by
  obtain ⟨h1, t, h2, h3⟩ := h
  obtain ⟨g1, u, g2, g3⟩ := h'
  refine ⟨GP.op (t := .plus) h1 g1 rfl rfl (fun _ => by simp), .bin .add t u, ?_, ?_⟩
  · rw [tokens_app]
    exact h2.add g2
  · intro p rnd env hn hs
    simp [value, h3 p rnd env hn hs.1, g3 p rnd env hn hs.2, binVal]

theorem Good.sub {ps qs : List Piece} {S S' : Nat → Env → Prop} {f g : Env → Int} (h : Good 3 ps S f)
    (h' : Good 2 qs S' g) :
    Good 3 (ps ++ qs) (fun p env => S p env ∧ S' p env) (fun env => f env + g env) := by
  obtain ⟨h1, t, h2, h3⟩ := h
  obtain ⟨q, u, rfl, g1, g2, g3⟩ := h'
  refine ⟨GP.op (t := .minus) h1 g1 rfl rfl (fun h => by cases h), .bin .sub t u, ?_, ?_⟩
  · rw [tokens_app]
    exact h2.sub g2
  · intro p rnd env hn hs
    have := g3.of_neg p rnd env hn hs.2
    simp [value, h3 p rnd env hn hs.1, this, binVal]

/-- `FLOOR(REAL(a)/REAL(n))` and `CEILING(REAL(a)/REAL(n))`. -/
def quotP (f : String) (ps : List Piece) (n : Nat) : List Piece :=
  .tok (.id f) :: .tok .lpar :: (((.tok (.id "REAL") :: .tok .lpar :: (ps ++ [.tok .rpar])) ++
    .tok .slash :: (.tok (.id "REAL") :: .tok .lpar :: ([.tok (.num n)] ++ [.tok .rpar]))) ++ [.tok .rpar])

theorem quot_parse (f : String) (hf : ident f = true) {ps : List Piece} {S : Nat → Env → Prop} {v : Env → Int}
    (n : Nat) (h : Good 3 ps S v) : GP false (quotP f ps n) ∧ ∃ t, IsPrim (tokens (quotP f ps n))
      (.call f [.bin .div (.call "REAL" [t]) (.call "REAL" [.num n])]) ∧ Vl t S v := by
  obtain ⟨h1, t, h2, h3⟩ := h
  have hr : ident "REAL" = true := by decide +kernel
  have hg : GP false [.tok (.num n)] := GP.of_toks (ts := [.num n]) (G.num n)
  refine ⟨GP.call hf (GP.op (t := .slash) (GP.call hr h1) (GP.call hr hg) rfl rfl (fun _ => by simp)), t, ?_, h3⟩
  unfold quotP
  rw [tokens_cons, tokens_cons, tokens_app, tokens_app]
  refine IsExp.call1 f (IsProd.exp ?_)
  refine IsProd.div ?_ (IsExp.call1 "REAL" (IsPrim.num n).prod.exp)
  rw [tokens_cons, tokens_cons, tokens_app]
  exact (h2.call1 "REAL").prod

theorem Good.floor {ps : List Piece} {S : Nat → Env → Prop} {v : Env → Int} {n : Nat} (hn : 0 < n)
    (h : Good 3 ps S v) : Good 0 (quotP "FLOOR" ps n)
      (fun p env => S p env ∧ |v env| ≤ 2 ^ p ∧ (n : Int) ≤ 2 ^ p) (fun env => v env / n) := by
  obtain ⟨h1, t, h2, h3⟩ := quot_parse "FLOOR" (by decide +kernel) n h
  refine ⟨h1, _, h2, ?_⟩
  intro p rnd env hr ⟨hs, ha, hb⟩
  have e := floor_quot hr ha (by omega : (1 : Int) ≤ n) hb
  have hne : rnd ((n : Int) : ℚ) ≠ 0 := by
    rw [hr.exact (float_int (by rw [abs_of_nonneg (by omega)]; exact hb))]
    exact_mod_cast hn.ne'
  simp only [value, values, h3 p rnd env hr hs, callVal, binVal, Option.bind_some, Option.map_some, if_true, hne,
    if_false]
  simp only [String.reduceEq, if_false, if_true]
  rw [e]

theorem Good.ceil {ps : List Piece} {S : Nat → Env → Prop} {v : Env → Int} {n : Nat} (hn : 0 < n)
    (h : Good 3 ps S v) : Good 0 (quotP "CEILING" ps n)
      (fun p env => S p env ∧ |v env| ≤ 2 ^ p ∧ (n : Int) ≤ 2 ^ p) (fun env => -((- v env) / n)) := by
  obtain ⟨h1, t, h2, h3⟩ := quot_parse "CEILING" (by decide +kernel) n h
  refine ⟨h1, _, h2, ?_⟩
  intro p rnd env hr ⟨hs, ha, hb⟩
  have e := ceil_quot hr ha (by omega : (1 : Int) ≤ n) hb
  have hne : rnd ((n : Int) : ℚ) ≠ 0 := by
    rw [hr.exact (float_int (by rw [abs_of_nonneg (by omega)]; exact hb))]
    exact_mod_cast hn.ne'
  simp only [value, values, h3 p rnd env hr hs, callVal, binVal, Option.bind_some, Option.map_some, if_true, hne,
    if_false]
  simp only [String.reduceEq, if_false, if_true]
  rw [e]

/-- `MOD(a, n)`. -/
def modP (ps : List Piece) (n : Nat) : List Piece :=
  .tok (.id "MOD") :: .tok .lpar :: ((ps ++ .tok .comma :: .ws [' '] :: [.tok (.num n)]) ++ [.tok .rpar])

theorem Good.mod {ps : List Piece} {S : Nat → Env → Prop} {v : Env → Int} {n : Nat} (hn : 0 < n)
    (h : Good 3 ps S v) : Good 0 (modP ps n) S (fun env => (v env).tmod n) := by
  obtain ⟨h1, t, h2, h3⟩ := h
  refine ⟨GP.call (by decide +kernel) (GP.comma_space h1 (GP.of_toks (ts := [.num n]) (G.num n))),
    .call "MOD" [t, .num n], ?_, ?_⟩
  · intro rest hr
    unfold modP
    rw [tokens_cons, tokens_cons, tokens_app, tokens_app]
    show Prim (.id "MOD" :: .lpar :: (tokens ps ++ .comma :: [.num n] ++ [.rpar] ++ rest)) _ rest
    refine .call (.cons (r := .num n :: .rpar :: rest) ?_ (.one ?_ (by simp)))
    · have := h2.whole (rest := .comma :: .num n :: .rpar :: rest) (Or.inr (Or.inr ⟨_, rfl⟩))
      simpa using this
    · exact (IsPrim.num n).prod.exp.whole (rest := .rpar :: rest) (Or.inr (Or.inl ⟨_, rfl⟩))
  · intro p rnd env hr hs
    have : ((n : Int) = 0) = False := by simp; omega
    simp only [value, values, h3 p rnd env hr hs, callVal, Option.bind_some, Option.map_some]
    simp only [String.reduceEq, if_false, if_true, this]

end Verif.FExpr
