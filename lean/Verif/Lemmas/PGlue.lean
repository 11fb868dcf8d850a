import Verif.Lemmas.PLex
import Verif.Lemmas.PExpr

/-!
# Printed tokens can be told apart
-/

namespace Verif.PGlue
open Verif.CText Verif.Clast Verif.ClastGen Verif.PPrint Verif.PLex Verif.PExpr

mutual
/-- All names in an expression are identifiers. -/
def idents : Expr → Bool
  | .name s => ident s
  | .cst _ => true
  | .term _ v => idents v
  | .bin _ l _ => idents l
  | .red _ es => identss es
/-- The same for lists. -/
def identss : List Expr → Bool
  | [] => true
  | e :: es => idents e && identss es
end

/-- Tokens an operand can directly follow. -/
def pre : Tok → Bool
  | .plus | .minus | .star | .slash | .percent | .lpar | .comma | .semi | .asg | .le | .pluseq => true
  | _ => false

/-- Tokens that end an operand. -/
def post : Tok → Bool
  | .id _ | .num _ | .rpar => true
  | _ => false

/-- Tokens that can follow an operand. -/
def after : Tok → Bool
  | .plus | .minus | .star | .slash | .percent | .rpar | .comma | .semi => true
  | _ => false

theorem double_word (c d : Char) (h : wordChar d = true) : double c d = none := by
  unfold double
  have hn : ∀ x, wordChar x = false → (d == x) = false := by
    intro x hx
    simp only [beq_eq_false_iff_ne]
    rintro rfl
    rw [hx] at h
    cases h
  simp [hn '+' (by decide), hn '-' (by decide), hn '=' (by decide), hn '&' (by decide), hn '>' (by decide),
    hn '/' (by decide), hn '*' (by decide), hn ':' (by decide)]

theorem sep_op_word {a t : Tok} (ha : isWord a = false) (ht : isWord t = true) (ho : tokOK t = true) :
    sep a t = true := by
  have hw := (word_spell ht ho).2.1
  rcases op_spell ha with ⟨c, e, _⟩ | ⟨c, d, e, _⟩
  · simp only [sep, ha, Bool.false_eq_true, if_false, e, List.all_eq_true]
    intro d hd
    rw [double_word c d (hw d hd)]
    rfl
  · simp [sep, ha, e]

theorem pre_word {a : Tok} (h : pre a = true) : isWord a = false := by cases a <;> simp [pre] at h <;> rfl

theorem sep_pre_lpar {a : Tok} (h : pre a = true) : sep a .lpar = true := by
  cases a <;> simp [pre] at h <;> decide

theorem sep_pre_minus {a : Tok} (h : pre a = true) (hm : a ≠ .minus) : sep a .minus = true := by
  cases a <;> simp [pre] at h <;> first | exact absurd rfl hm | decide

theorem sep_after {a t : Tok} (h : post a = true) (ht : after t = true) : sep a t = true := by
  cases a <;> simp [post] at h <;> cases t <;> simp [after] at ht <;> first | rfl | decide

theorem after_ok {t : Tok} (ht : after t = true) : tokOK t = true := by
  cases t <;> simp [after] at ht <;> rfl

/-- The tokens can stand between an operator and what can follow; `b` if they start with a minus sign. -/
def G (b : Bool) (ts : List Tok) : Prop :=
  ∀ prev ps, (∀ a, prev = some a → pre a = true ∧ (b = true → a ≠ .minus)) →
    (∀ a, post a = true → sepFrom (some a) ps) → sepFrom prev (toks ts ++ ps)

theorem G.any {b : Bool} {ts : List Tok} (h : G b ts) : G true ts :=
  fun prev ps h1 h2 => h prev ps (fun a ha => ⟨(h1 a ha).1, fun _ => (h1 a ha).2 rfl⟩) h2

theorem G.of_false {b : Bool} {ts : List Tok} (h : G false ts) : G b ts :=
  fun prev ps h1 h2 => h prev ps (fun a ha => ⟨(h1 a ha).1, fun hb => by cases hb⟩) h2

theorem toks_cons (t : Tok) (ts : List Tok) : toks (t :: ts) = .tok t :: toks ts := rfl
theorem toks_append (a b : List Tok) : toks (a ++ b) = toks a ++ toks b := by simp [toks]

theorem G.word {t : Tok} (ht : isWord t = true) (ho : tokOK t = true) : G false [t] := by
  intro prev ps h1 h2
  refine ⟨ho, fun a ha => sep_op_word (pre_word (h1 a ha).1) ht ho, h2 t ?_⟩
  cases t <;> simp [isWord] at ht <;> rfl

theorem G.minus {ts : List Tok} (h : G false ts) : G true (.minus :: ts) := by
  intro prev ps h1 h2
  refine ⟨rfl, fun a ha => sep_pre_minus (h1 a ha).1 ((h1 a ha).2 rfl), ?_⟩
  exact h _ ps (fun a ha => by cases ha; exact ⟨rfl, fun hb => by cases hb⟩) h2

/-- An operator between two operands. -/
theorem G.op {b c : Bool} {p q : List Tok} {t : Tok} (hp : G b p) (hq : G c q) (ha : after t = true)
    (hpre : pre t = true) (hm : c = true → t ≠ .minus) : G b (p ++ t :: q) := by
  intro prev ps h1 h2
  rw [toks_append, toks_cons, List.append_assoc, List.cons_append]
  apply hp prev _ h1
  intro a hpa
  refine ⟨after_ok ha, fun a' ha' => by cases ha'; exact sep_after hpa ha, ?_⟩
  exact hq _ ps (fun a ha => by cases ha; exact ⟨hpre, hm⟩) h2

theorem G.paren {b : Bool} {ts : List Tok} (h : G b ts) : G false (.lpar :: (ts ++ [.rpar])) := by
  intro prev ps h1 h2
  refine ⟨rfl, fun a ha => sep_pre_lpar (h1 a ha).1, ?_⟩
  show sepFrom (some .lpar) (toks (ts ++ [.rpar]) ++ ps)
  rw [toks_append, List.append_assoc]
  apply h
  · intro a ha
    cases ha
    exact ⟨rfl, fun _ => by simp⟩
  · intro a hpa
    exact ⟨rfl, fun a' ha' => by cases ha'; exact sep_after hpa rfl, h2 _ rfl⟩

/-- A call. -/
theorem G.call {b : Bool} {f : String} {ts : List Tok} (hf : ident f = true) (h : G b ts) :
    G false (.id f :: .lpar :: (ts ++ [.rpar])) := by
  intro prev ps h1 h2
  refine ⟨hf, fun a ha => sep_op_word (pre_word (h1 a ha).1) rfl hf, rfl, fun a ha => by cases ha; rfl, ?_⟩
  show sepFrom (some .lpar) (toks (ts ++ [.rpar]) ++ ps)
  rw [toks_append, List.append_assoc]
  apply h
  · intro a ha
    cases ha
    exact ⟨rfl, fun _ => by simp⟩
  · intro a hpa
    exact ⟨rfl, fun a' ha' => by cases ha'; exact sep_after hpa rfl, h2 _ rfl⟩

theorem G.parens {b : Bool} {g : Bool} {ts : List Tok} (h : G b ts) : G (!g && b) (parens g ts) := by
  cases g with
  | true => simpa [PPrint.parens] using h.paren
  | false => simpa [PPrint.parens] using h

theorem G.num (n : Nat) : G false [.num n] := G.word rfl rfl

theorem G.int (n : Int) : G (decide (n < 0)) (printInt n) := by
  unfold printInt
  by_cases h : n < 0
  · simpa [h] using (G.num n.natAbs).minus
  · simpa [h] using G.num n.natAbs

/-- A negative term is a minus sign and something that does not start with one. -/
theorem G.neg_term {e : Expr} (ht : isTerm e = true) (hc : coef e < 0) (ho : ok e = true)
    (hp : ∀ c v, e = .term c v → G (negStart v) (printExpr v)) :
    ∃ q, printExpr e = .minus :: q ∧ G false q := by
  match e, ht, hc, ho, hp with
  | .cst c, _, hc, _, _ =>
    simp only [coef] at hc
    exact ⟨[.num c.natAbs], by simp [printExpr, printInt, hc], G.num _⟩
  | .term c v, _, hc, ho, hp =>
    have h := (hp c v rfl).parens (g := group v)
    simp only [coef] at hc
    simp only [ok, Bool.and_eq_true, Bool.or_eq_true, decide_eq_true_eq, Bool.not_eq_true',
      decide_eq_false_iff_not] at ho
    obtain ⟨_, ho⟩ := ho
    by_cases h2 : c = -1
    · subst h2
      refine ⟨_, term_neg, ?_⟩
      have hb : (!group v && negStart v) = false := by
        rcases ho with ho | ho
        · simp [ho]
        · rcases ho.2 with h3 | h3
          · exact absurd rfl h3
          · simp [h3]
      rw [hb] at h
      exact h
    · refine ⟨.num c.natAbs :: .star :: PPrint.parens (group v) (printExpr v), ?_, ?_⟩
      · rw [term_coef (by omega) h2]; simp [printInt, hc]
      · exact G.op (t := .star) (G.num c.natAbs) h rfl rfl (fun _ => by simp)

mutual
theorem glue : ∀ e, ok e = true → idents e = true → G (negStart e) (printExpr e)
  | .name s, _, hi => by
    have := G.word (t := .id s) rfl (by simpa [idents, tokOK] using hi)
    simpa [printExpr, negStart] using this
  | .cst c, _, _ => by simpa [printExpr, negStart] using G.int c
  | .term c v, ho, hi => by
    have ho' := ho
    simp only [ok, Bool.and_eq_true, Bool.or_eq_true, decide_eq_true_eq, Bool.not_eq_true',
      decide_eq_false_iff_not] at ho'
    have hv := glue v ho'.1 (by simpa [idents] using hi)
    by_cases h1 : c = 1
    · subst h1
      rw [term_one]
      have := hv.parens (g := group v)
      have hb : negStart (.term 1 v) = (!group v && negStart v) := by simp [negStart]
      rw [hb]
      exact this
    · by_cases hc : c < 0
      · obtain ⟨q, hq, hg⟩ := G.neg_term (e := .term c v) rfl hc ho (fun c' v' h => by cases h; exact hv)
        rw [hq]
        have hb : negStart (.term c v) = true := by simp [negStart, hc]
        rw [hb]
        exact hg.minus
      · rw [term_coef h1 (by omega)]
        have hb : negStart (.term c v) = decide (c < 0) := by simp [negStart, h1]
        rw [hb]
        exact G.op (t := .star) (G.int c) hv.parens rfl rfl (fun _ => by simp)
  | .bin .fdiv lhs rhs, ho, hi => by
    have hl := glue lhs (by simpa [ok] using ho) (by simpa [idents] using hi)
    have := G.call (f := "floord") (by decide) (G.op (t := .comma) hl (G.int rhs) rfl rfl (fun _ => by simp))
    rw [printExpr]
    have hb : negStart (.bin .fdiv lhs rhs) = false := by simp [negStart]
    rw [hb]
    simpa using this
  | .bin .cdiv lhs rhs, ho, hi => by
    have hl := glue lhs (by simpa [ok] using ho) (by simpa [idents] using hi)
    have := G.call (f := "ceild") (by decide) (G.op (t := .comma) hl (G.int rhs) rfl rfl (fun _ => by simp))
    rw [printExpr]
    have hb : negStart (.bin .cdiv lhs rhs) = false := by simp [negStart]
    rw [hb]
    simpa using this
  | .bin .div lhs rhs, ho, hi => by
    have h' : ok lhs = true ∧ (group lhs = true ∨ isMul lhs = true) := by simpa [ok] using ho
    have hl := (glue lhs h'.1 (by simpa [idents] using hi)).parens (g := group lhs)
    rw [printExpr]
    have hb : negStart (.bin .div lhs rhs) = (!group lhs && negStart lhs) := by simp [negStart]
    rw [hb]
    exact G.op (t := .slash) hl (G.int rhs) rfl rfl (fun _ => by simp)
  | .bin .mod lhs rhs, ho, hi => by
    have h' : ok lhs = true ∧ (group lhs = true ∨ isMul lhs = true) := by simpa [ok] using ho
    have hl := (glue lhs h'.1 (by simpa [idents] using hi)).parens (g := group lhs)
    rw [printExpr]
    have hb : negStart (.bin .mod lhs rhs) = (!group lhs && negStart lhs) := by simp [negStart]
    rw [hb]
    exact G.op (t := .percent) hl (G.int rhs) rfl rfl (fun _ => by simp)
  | .red t [], ho, _ => by simp [ok] at ho
  | .red .sum (e :: es), ho, hi => by
    have h' : ok e = true ∧ okTail es = true := by simpa [ok] using ho
    have hi' : idents e = true ∧ identss es = true := by simpa [idents, identss] using hi
    rw [printExpr]
    have hb : negStart (.red .sum (e :: es)) = negStart e := by simp [negStart]
    rw [hb]
    exact glue_sum es h'.2 hi'.2 _ _ (glue e h'.1 hi'.1)
  | .red .min (e :: es), ho, hi => by
    have h' : ok e = true ∧ oks es = true := by simpa [ok] using ho
    have hi' : idents e = true ∧ identss es = true := by simpa [idents, identss] using hi
    rw [printExpr]; swap; · simp
    have := glue_mm .min es h'.2 hi'.2 _ _ (glue e h'.1 hi'.1)
    cases es with
    | nil =>
      have hb : negStart (.red .min [e]) = negStart e := by simp [negStart]
      rw [hb]
      simpa using this
    | cons e2 es => exact G.of_false (by simpa using this)
  | .red .max (e :: es), ho, hi => by
    have h' : ok e = true ∧ oks es = true := by simpa [ok] using ho
    have hi' : idents e = true ∧ identss es = true := by simpa [idents, identss] using hi
    rw [printExpr]; swap; · simp
    have := glue_mm .max es h'.2 hi'.2 _ _ (glue e h'.1 hi'.1)
    cases es with
    | nil =>
      have hb : negStart (.red .max [e]) = negStart e := by simp [negStart]
      rw [hb]
      simpa using this
    | cons e2 es => exact G.of_false (by simpa using this)
theorem glue_sum : ∀ es, okTail es = true → identss es = true → ∀ b acc, G b acc → G b (acc ++ printSum es)
  | [], _, _ => fun b acc h => by simpa [printSum] using h
  | e :: es, h, hi => fun b acc hacc => by
    have h' : ((ok e = true ∧ isTerm e = true) ∧ coef e ≠ 0) ∧ okTail es = true := by
      simpa [okTail] using h
    obtain ⟨⟨⟨h1, h2⟩, h3⟩, h5⟩ := h'
    have hi' : idents e = true ∧ identss es = true := by simpa [identss] using hi
    rw [printSum, ← List.append_assoc]
    by_cases hc : 0 < coef e
    · have := G.op (t := .plus) hacc (glue e h1 hi'.1) rfl rfl (fun _ => by simp)
      simp only [hc, if_true, List.cons_append, List.nil_append]
      exact glue_sum es h5 hi'.2 _ _ this
    · obtain ⟨q, hq, hv⟩ := G.neg_term h2 (by omega) h1 (fun c v hcv => glue v (by
        subst hcv
        simp only [ok, Bool.and_eq_true] at h1; exact h1.1) (by
        subst hcv
        simpa [idents] using hi'.1))
      have := G.op (t := .minus) hacc hv rfl rfl (fun h => by cases h)
      simp only [hc, if_false, List.nil_append, hq]
      exact glue_sum es h5 hi'.2 _ _ this
theorem glue_mm (t : RedType) : ∀ es, oks es = true → identss es = true → ∀ b acc, G b acc →
    G (es.isEmpty && b) ((List.replicate es.length [Tok.id (mmName t), Tok.lpar]).flatten ++ acc ++ printMM es)
  | [], _, _ => fun b acc h => by simpa [printMM] using h
  | e :: es, h, hi => fun b acc hacc => by
    have h' : ok e = true ∧ oks es = true := by simpa [oks] using h
    have hi' : idents e = true ∧ identss es = true := by simpa [identss] using hi
    have := G.call (f := mmName t) (by cases t <;> decide)
      (G.op (t := .comma) hacc (glue e h'.1 hi'.1) rfl rfl (fun _ => by simp))
    have := glue_mm t es h'.2 hi'.2 _ _ this
    rw [printMM, List.length_cons, List.replicate_succ']
    simp only [Bool.and_false] at this
    simpa using this
end

end Verif.PGlue
