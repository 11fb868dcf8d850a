import Verif.Model.PPrint
import Mathlib.Tactic.IntervalCases

/-!
# Reading back the characters of printed tokens
-/

namespace Verif.PLex
open Verif.CText Verif.PPrint

/-! ## Numbers -/

theorem digit_char : ∀ d, d < 10 → (Char.ofNat (48 + d)).isDigit = true ∧ (Char.ofNat (48 + d)).toNat - 48 = d ∧
    wordChar (Char.ofNat (48 + d)) = true ∧ (Char.ofNat (48 + d) = '0' → d = 0) := by decide

theorem dec_props (f : Nat) : ∀ n, n < f → (∀ c ∈ decChars f n, c.isDigit = true ∧ wordChar c = true) ∧
    digitsVal (decChars f n) = n ∧ decChars f n ≠ [] ∧
    (n ≠ 0 → (decChars f n).head? ≠ some '0') ∧ (n < 10 → (decChars f n).length = 1) := by
  induction f with
  | zero => intro n h; omega
  | succ f ih =>
    intro n hn
    unfold decChars
    split
    · rename_i h
      obtain ⟨a, b, c, d⟩ := digit_char n h
      refine ⟨?_, ?_, by simp, ?_, by simp⟩
      · intro x hx; simp at hx; subst hx; exact ⟨a, c⟩
      · simp only [digitsVal, List.foldl_cons, List.foldl_nil, b]; omega
      · intro h0 h1; simp at h1; exact h0 (d h1)
    · rename_i h
      obtain ⟨i1, i2, i3, i4, _⟩ := ih (n / 10) (by omega)
      obtain ⟨a, b, c, d⟩ := digit_char (n % 10) (by omega)
      refine ⟨?_, ?_, by simp, ?_, fun h' => absurd h' h⟩
      · intro x hx
        simp only [List.mem_append, List.mem_singleton] at hx
        rcases hx with hx | rfl
        · exact i1 x hx
        · exact ⟨a, c⟩
      · unfold digitsVal at i2 ⊢
        rw [List.foldl_append, i2]
        simp only [List.foldl_cons, List.foldl_nil, b]
        omega
      · intro _
        have := i4 (by omega)
        cases hd : decChars f (n / 10) with
        | nil => exact absurd hd i3
        | cons x l => rw [hd] at this; simpa using this

/-! ## Tokens and pairs of tokens -/

/-- Identifiers. -/
def ident (s : String) : Bool :=
  match s.toList with
  | [] => false
  | c :: w => !c.isDigit && wordChar c && w.all wordChar

/-- Tokens made of word characters. -/
def isWord : Tok → Bool
  | .id _ => true
  | .num _ => true
  | _ => false

/-- The token can be read back. -/
def tokOK : Tok → Bool
  | .id s => ident s
  | _ => true

/-- Two tokens can be written without space between them. -/
def sep (a b : Tok) : Bool :=
  if isWord a then !isWord b
  else match spell a with
    | [c] => (spell b).all (fun d => (double c d).isNone)
    | _ => true

theorem word_spell {t : Tok} (ht : isWord t = true) (ho : tokOK t = true) :
    word (spell t) = some [t] ∧ (∀ c ∈ spell t, wordChar c = true) ∧ spell t ≠ [] := by
  cases t <;> simp [isWord] at ht
  · rename_i s
    simp only [tokOK, ident] at ho
    simp only [spell]
    cases hs : s.toList with
    | nil => rw [hs] at ho; simp at ho
    | cons c w =>
      rw [hs] at ho
      simp only [Bool.and_eq_true, Bool.not_eq_true', List.all_eq_true] at ho
      refine ⟨?_, ?_, by simp⟩
      · simp only [word, ho.1.1, Bool.false_eq_true, if_false]
        rw [← hs, String.ofList_toList]
      · intro d hd
        simp only [List.mem_cons] at hd
        rcases hd with rfl | hd
        · exact ho.1.2
        · exact ho.2 d hd
  · rename_i n
    obtain ⟨h1, h2, h3, h4, h5⟩ := dec_props (n + 1) n (by omega)
    simp only [spell]
    refine ⟨?_, fun c hc => (h1 c hc).2, h3⟩
    cases hd : decChars (n + 1) n with
    | nil => exact absurd hd h3
    | cons c w =>
      rw [hd] at h1 h2 h4 h5
      have hc := (h1 c (by simp)).1
      have hw : w.all Char.isDigit = true := List.all_eq_true.2 fun d hd => (h1 d (by simp [hd])).1
      have hz : (c != '0' || w.isEmpty) = true := by
        by_cases hn : n = 0
        · have := h5 (by omega)
          simp at this
          simp [this]
        · have := h4 hn
          simp at this
          simp [this]
      simp only [word, hc, hw, hz, Bool.and_self, if_true, h2]

/-- A non-word token. -/
theorem op_spell {t : Tok} (ht : isWord t = false) :
    (∃ c, spell t = [c] ∧ single c = some t ∧ wordChar c = false ∧ isSpace c = false) ∨
    (∃ c d, spell t = [c, d] ∧ double c d = some (some t) ∧ wordChar c = false ∧ isSpace c = false) := by
  cases t <;> simp [isWord] at ht <;>
    first
      | exact Or.inl ⟨_, rfl, by decide, by decide, by decide⟩
      | exact Or.inr ⟨_, _, rfl, by decide, by decide, by decide⟩

/-! ## Longest match -/

theorem putToks_nil (x : Option (List Tok)) : putToks (some []) x = x := by cases x <;> simp [putToks]

theorem putToks_none (x : Option (List Tok)) : putToks x none = none := by cases x <;> simp [putToks]

theorem putToks_assoc (a b c : Option (List Tok)) : putToks a (putToks b c) = putToks (putToks a b) c := by
  cases a <;> cases b <;> cases c <;> simp [putToks]

theorem lexGo_nil (w : List Char) : lexGo w [] = word w := by unfold lexGo; rfl

theorem lexGo_word (w : List Char) (c : Char) (cs : List Char) (h : wordChar c = true) :
    lexGo w (c :: cs) = lexGo (w ++ [c]) cs := by
  cases cs with
  | nil => rw [lexGo_nil]; unfold lexGo; simp [h]
  | cons d cs => conv => lhs; unfold lexGo
                 simp only [h, if_true]

theorem lexGo_words (ws : List Char) (h : ∀ c ∈ ws, wordChar c = true) (cs : List Char) :
    ∀ w, lexGo w (ws ++ cs) = lexGo (w ++ ws) cs := by
  induction ws with
  | nil => intro w; simp
  | cons c ws ih =>
    intro w
    rw [List.cons_append, lexGo_word _ _ _ (h c (by simp)), ih (fun d hd => h d (by simp [hd]))]
    simp

theorem lexGo_flush (w cs : List Char) (h : ∀ c, cs.head? = some c → wordChar c = false) :
    lexGo w cs = putToks (word w) (lexGo [] cs) := by
  match cs with
  | [] => rw [lexGo_nil, lexGo_nil]; cases word w <;> simp [word, putToks]
  | [c] =>
    have hc := h c rfl
    unfold lexGo
    simp only [hc, Bool.false_eq_true, if_false]
    have h0 : word [] = some [] := rfl
    split
    · rw [h0]; cases word w <;> simp [putToks]
    · rw [h0, putToks_nil]
  | c :: d :: cs =>
    have hc := h c rfl
    have h0 : word [] = some [] := rfl
    conv => lhs; unfold lexGo
    conv => rhs; unfold lexGo
    simp only [hc, Bool.false_eq_true, if_false, h0, putToks_nil]
    split
    · rfl
    · split <;> simp_all [putToks_none]

theorem lexGo_space (c : Char) (cs : List Char) (h : isSpace c = true) : lexGo [] (c :: cs) = lexGo [] cs := by
  have hw : wordChar c = false := by
    simp only [isSpace, Bool.or_eq_true, beq_iff_eq] at h
    rcases h with rfl | rfl <;> decide
  have h0 : word [] = some [] := rfl
  cases cs with
  | nil => rw [lexGo_nil]; unfold lexGo; simp [hw, h]
  | cons d cs =>
    conv => lhs; unfold lexGo
    simp only [hw, h, Bool.false_eq_true, if_false, if_true, h0, putToks_nil]

theorem lexGo_single {c : Char} {t : Tok} (hs : single c = some t) (hw : wordChar c = false)
    (hsp : isSpace c = false) (cs : List Char) (hd : ∀ d, cs.head? = some d → double c d = none) :
    lexGo [] (c :: cs) = putToks (some [t]) (lexGo [] cs) := by
  have h0 : word [] = some [] := rfl
  cases cs with
  | nil => rw [lexGo_nil]; unfold lexGo; simp [hw, hsp, hs, h0, putToks]
  | cons d cs =>
    conv => lhs; unfold lexGo
    simp only [hw, hsp, Bool.false_eq_true, if_false, hd d rfl, h0, putToks_nil, hs, Option.map_some]

theorem lexGo_double {c d : Char} {t : Tok} (hs : double c d = some (some t)) (hw : wordChar c = false)
    (hsp : isSpace c = false) (cs : List Char) :
    lexGo [] (c :: d :: cs) = putToks (some [t]) (lexGo [] cs) := by
  have h0 : word [] = some [] := rfl
  conv => lhs; unfold lexGo
  simp only [hw, hsp, Bool.false_eq_true, if_false, hs, h0, putToks_nil]
  cases lexGo [] cs <;> simp [putToks]

/-! ## Pieces -/

/-- Tokens can be read back, spaces are spaces, and neighbours can be told apart; `prev` is the token
    directly in front. -/
def sepFrom : Option Tok → List Piece → Prop
  | _, [] => True
  | prev, .tok t :: ps => tokOK t = true ∧ (∀ a, prev = some a → sep a t = true) ∧ sepFrom (some t) ps
  | prev, .ws [] :: ps => sepFrom prev ps
  | _, .ws (c :: cs) :: ps => (∀ d ∈ c :: cs, isSpace d = true) ∧ sepFrom none ps

theorem text_cons (p : Piece) (ps : List Piece) : text (p :: ps) = p.chars ++ text ps := rfl

theorem text_append (a b : List Piece) : text (a ++ b) = text a ++ text b := by simp [text]

theorem spell_ne {t : Tok} (ho : tokOK t = true) : spell t ≠ [] := by
  cases ht : isWord t with
  | true => exact (word_spell ht ho).2.2
  | false =>
    rcases op_spell ht with ⟨c, h, _⟩ | ⟨c, d, h, _⟩ <;> rw [h] <;> simp

theorem double_space (c d : Char) (h : isSpace d = true) : double c d = none := by
  simp only [isSpace, Bool.or_eq_true, beq_iff_eq] at h
  unfold double
  rcases h with rfl | rfl <;> simp

/-- The first character after a token. -/
theorem next_char {a : Tok} : ∀ {ps : List Piece}, sepFrom (some a) ps → ∀ d, (text ps).head? = some d →
    (isWord a = true → wordChar d = false) ∧ (∀ c, isWord a = false → spell a = [c] → double c d = none)
  | [], _, d, hd => by simp [text] at hd
  | .tok t :: ps, h, d, hd => by
    obtain ⟨h1, h2, _⟩ := h
    have hs := h2 a rfl
    have hne := spell_ne h1
    rw [text_cons] at hd
    simp only [Piece.chars] at hd
    have hm : (spell t).head? = some d := by
      cases hx : spell t with
      | nil => exact absurd hx hne
      | cons x l => rw [hx] at hd; simpa using hd
    have hmem : d ∈ spell t := List.mem_of_head? hm
    constructor
    · intro hw
      simp only [sep, hw, if_true, Bool.not_eq_true'] at hs
      rcases op_spell hs with ⟨c, e, _, hc, _⟩ | ⟨c, d', e, _, hc, _⟩ <;> rw [e] at hm <;> simp at hm <;>
        rw [← hm] <;> exact hc
    · intro c hw hc
      simp only [sep, hw, Bool.false_eq_true, if_false, hc, List.all_eq_true] at hs
      have := hs d hmem
      simpa using this
  | .ws [] :: ps, h, d, hd => next_char (ps := ps) (by simpa [sepFrom] using h) d (by simpa [text_cons, Piece.chars] using hd)
  | .ws (c :: cs) :: ps, h, d, hd => by
    obtain ⟨h1, _⟩ := h
    rw [text_cons] at hd
    simp only [Piece.chars, List.cons_append, List.head?_cons, Option.some.injEq] at hd
    subst hd
    have := h1 c (by simp)
    constructor
    · intro _
      simp only [isSpace, Bool.or_eq_true, beq_iff_eq] at this
      rcases this with rfl | rfl <;> decide
    · intro c' _ _
      exact double_space c' c this

theorem lexGo_spaces (ws : List Char) (h : ∀ c ∈ ws, isSpace c = true) (cs : List Char) :
    lexGo [] (ws ++ cs) = lexGo [] cs := by
  induction ws with
  | nil => rfl
  | cons c ws ih =>
    rw [List.cons_append, lexGo_space _ _ (h c (by simp)), ih (fun d hd => h d (by simp [hd]))]

/-- The characters of separated pieces are read back as the tokens. -/
theorem lex_text : ∀ (ps : List Piece) (prev : Option Tok), sepFrom prev ps → lex (text ps) = some (tokens ps)
  | [], _, _ => by simp [text, tokens, lex, lexGo_nil, word]
  | .ws [] :: ps, prev, h => by
    have := lex_text ps prev (by simpa [sepFrom] using h)
    simpa [text_cons, Piece.chars, tokens] using this
  | .ws (c :: cs) :: ps, _, h => by
    have := lex_text ps none h.2
    rw [text_cons]
    unfold lex at this ⊢
    simp only [Piece.chars, tokens]
    rw [lexGo_spaces _ h.1, this]
  | .tok t :: ps, _, h => by
    have ih := lex_text ps (some t) h.2.2
    have hn := next_char h.2.2
    rw [text_cons]
    unfold lex at ih ⊢
    simp only [Piece.chars, tokens]
    cases ht : isWord t with
    | true =>
      obtain ⟨a, b, c⟩ := word_spell ht h.1
      rw [lexGo_words _ b, List.nil_append, lexGo_flush _ _ (fun d hd => (hn d hd).1 ht), a, ih]
      rfl
    | false =>
      rcases op_spell ht with ⟨c, e, e1, e2, e3⟩ | ⟨c, d, e, e1, e2, e3⟩
      · rw [e, List.singleton_append, lexGo_single e1 e2 e3 _ (fun d hd => (hn d hd).2 c ht e), ih]
        rfl
      · rw [e]
        simp only [List.cons_append, List.nil_append]
        rw [lexGo_double e1 e2 e3, ih]
        rfl

end Verif.PLex
