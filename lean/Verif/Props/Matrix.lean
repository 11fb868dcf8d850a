import Verif.Model.Matrix
import Mathlib.Data.List.TakeWhile
import Mathlib.Tactic.IntervalCases
import Mathlib.Tactic.Common

/-!
# C31, C48: matrices are read as written

The input is described by its lines and by the words of a line; both notions are stated with the
list library only.
-/

namespace Verif.Props.Matrix

open Verif.Options Verif.Matrix

/-! ## Specification -/

/-- A text made of the given lines. -/
def file (lines : List Str) : Str := lines.flatMap (· ++ ['\n'])

/-- The words of a text: the non-empty pieces between white space. -/
def words (s : Str) : List Str := (s.splitOnP isspace).filter (· ≠ [])

/-- A line that carries data: neither blank nor a comment. -/
def isData (l : Str) : Bool :=
  decide (l.dropWhile isspace ≠ []) && decide ((l.dropWhile isspace).head? ≠ some '#')

/-- A line the reader can handle: it fits into its buffer of 1024 characters. -/
def GoodLine (l : Str) : Prop := '\n' ∉ l ∧ l.length ≤ 1022

/-! ## Words -/

theorem words_nil : words [] = [] := by simp [words]

theorem words_cons_space (c : Char) (s : Str) (h : isspace c = true) : words (c :: s) = words s := by
  simp [words, List.splitOnP_cons_eq_if_modifyHead, h]

theorem words_dropWhile (s : Str) : words (s.dropWhile isspace) = words s := by
  induction s with
  | nil => rfl
  | cons c s ih =>
    by_cases h : isspace c = true
    · rw [List.dropWhile_cons_of_pos h, ih, words_cons_space c s h]
    · rw [List.dropWhile_cons_of_neg h]

theorem words_word (w r : Str) (hw : w ≠ []) (hns : ∀ c ∈ w, ¬ isspace c = true)
    (hr : ∀ c s, r = c :: s → isspace c = true) : words (w ++ r) = w :: words r := by
  cases r with
  | nil =>
    simp [words, List.splitOnP_eq_singleton (fun x hx => by simpa using hns x hx), hw]
  | cons c s =>
    have hc := hr c s rfl
    rw [words_cons_space c s hc]
    unfold words
    rw [List.splitOnP_append_cons_of_forall_mem (fun x hx => by simpa using hns x hx) c hc]
    simp [hw]

theorem takeWhile_rest (q : Str) : ∀ c s, q.dropWhile (fun c => !isspace c) = c :: s → isspace c = true := by
  intro c s h
  have := List.head?_dropWhile_not (fun c => !isspace c) q
  rw [h] at this
  simpa using this

theorem words_split (p : Str) (h : p.dropWhile isspace ≠ []) :
    words p = (p.dropWhile isspace).takeWhile (fun c => !isspace c)
      :: words ((p.dropWhile isspace).dropWhile (fun c => !isspace c)) := by
  rw [← words_dropWhile p]
  generalize hq : p.dropWhile isspace = q at *
  have hne : q.takeWhile (fun c => !isspace c) ≠ [] := by
    cases q with
    | nil => exact absurd rfl h
    | cons c s =>
      have : isspace c = false := by
        have := List.head?_dropWhile_not isspace p
        rw [hq] at this
        simpa using this
      simp [this]
  conv_lhs => rw [← List.takeWhile_append_dropWhile (p := fun c => !isspace c) (l := q)]
  refine words_word _ _ hne ?_ (takeWhile_rest q)
  intro c hc
  have := List.mem_takeWhile_imp hc
  simpa using this

theorem words_eq_nil (p : Str) (h : p.dropWhile isspace = []) : words p = [] := by
  rw [← words_dropWhile p, h, words_nil]

theorem drop_word (p : Str) :
    p.drop ((p.length - (p.dropWhile isspace).length)
      + ((p.dropWhile isspace).takeWhile (fun c => !isspace c)).length)
      = (p.dropWhile isspace).dropWhile (fun c => !isspace c) := by
  have h1 : p = p.takeWhile isspace ++ p.dropWhile isspace := List.takeWhile_append_dropWhile.symm
  have h2 : (p.dropWhile isspace) = (p.dropWhile isspace).takeWhile (fun c => !isspace c)
      ++ (p.dropWhile isspace).dropWhile (fun c => !isspace c) :=
    List.takeWhile_append_dropWhile.symm
  have hl : p.length - (p.dropWhile isspace).length = (p.takeWhile isspace).length := by
    have := congrArg List.length h1
    rw [List.length_append] at this
    omega
  have h3 : List.drop (p.takeWhile isspace).length p = p.dropWhile isspace := by
    have := List.drop_left (l₁ := p.takeWhile isspace) (l₂ := p.dropWhile isspace)
    rwa [← h1] at this
  rw [hl, ← List.drop_drop, h3]
  have := List.drop_left (l₁ := (p.dropWhile isspace).takeWhile (fun c => !isspace c))
    (l₂ := (p.dropWhile isspace).dropWhile (fun c => !isspace c))
  rwa [← h2] at this

/-- `sscanf` finds the first word and leaves the others. -/
theorem scanWord_cons (p w : Str) (ws : List Str) (h : words p = w :: ws) :
    ∃ off, scanWord p = some (w, off) ∧ words (p.drop off) = ws ∧
      (∀ c s, p.drop off = c :: s → isspace c = true) := by
  by_cases hq : p.dropWhile isspace = []
  · rw [words_eq_nil p hq] at h
    exact absurd h (by simp)
  · have := words_split p hq
    rw [h] at this
    obtain ⟨h1, h2⟩ := List.cons.inj this
    refine ⟨_, by unfold scanWord; rw [if_neg hq, ← h1], ?_, ?_⟩
    · rw [h1, drop_word, ← h2]
    · rw [h1, drop_word]
      exact takeWhile_rest _

theorem scanWord_nil (p : Str) (h : words p = []) : scanWord p = none := by
  by_cases hq : p.dropWhile isspace = []
  · unfold scanWord
    rw [if_pos hq]
  · rw [words_split p hq] at h
    exact absurd h (by simp)

/-! ## Rows -/

theorem readCols_ok (rd : Str → Int) (n : Nat) (p : Str) (last : Option (Str × Nat))
    (h : n ≤ (words p).length) : readCols rd n (some p) last = .ok (((words p).take n).map rd) := by
  induction n generalizing p last with
  | zero => simp [readCols]
  | succ n ih =>
    cases hw : words p with
    | nil => rw [hw] at h; simp at h
    | cons w ws =>
      obtain ⟨off, h1, h2, _⟩ := scanWord_cons p w ws hw
      rw [hw] at h
      simp only [readCols, h1]
      rw [ih _ _ (by rw [h2]; simpa using h), h2]
      simp [Out.bind]

/-- With exactly one word missing the last word is used twice. -/
theorem readCols_short (rd : Str → Int) (n : Nat) (p w : Str) (last : Option (Str × Nat))
    (h : (words p).length = n + 1) (hl : (words p).getLast? = some w) :
    readCols rd (n + 2) (some p) last = .ok ((words p).map rd ++ [rd w]) := by
  induction n generalizing p last with
  | zero =>
    cases hw : words p with
    | nil => rw [hw] at h; simp at h
    | cons v ws =>
      obtain ⟨off, h1, h2, _⟩ := scanWord_cons p v ws hw
      have : ws = [] := by rw [hw] at h; simpa using h
      subst this
      rw [hw] at hl
      have hv : v = w := by simpa using hl
      subst hv
      simp only [readCols, h1, scanWord_nil _ h2, Out.bind]
      rfl
  | succ n ih =>
    cases hw : words p with
    | nil => rw [hw] at h; simp at h
    | cons v ws =>
      obtain ⟨off, h1, h2, _⟩ := scanWord_cons p v ws hw
      rw [hw] at h hl
      have h' : (words (p.drop off)).length = n + 1 := by rw [h2]; simpa using h
      have hl' : (words (p.drop off)).getLast? = some w := by
        rw [h2]
        cases ws with
        | nil => simp at h
        | cons a as => simpa using hl
      show readCols rd ((n + 2) + 1) (some p) last = _
      unfold readCols
      simp only [h1]
      rw [ih _ _ h' hl', h2]
      simp [Out.bind]

/-! ## Lines -/

theorem fgetsGo_line (n : Nat) (l r : Str) (hn : '\n' ∉ l) (hl : l.length + 1 ≤ n) :
    fgetsGo n (l ++ '\n' :: r) = (l ++ ['\n'], r) := by
  induction l generalizing n with
  | nil =>
    cases n with
    | zero => simp at hl
    | succ n => simp [fgetsGo]
  | cons c l ih =>
    cases n with
    | zero => simp at hl
    | succ n =>
      have hc : c ≠ '\n' := fun h => hn (by simp [h])
      have := ih n (fun h => hn (by simp [h])) (by simpa using hl)
      simp [fgetsGo, hc, this]

theorem isBlank_of_ne (c : Char) (h : c ≠ '\n') : isBlank c = isspace c := by simp [isBlank, h]

theorem dropWhile_blank (l : Str) (hn : '\n' ∉ l) :
    (l ++ ['\n']).dropWhile isBlank = l.dropWhile isspace ++ ['\n'] := by
  induction l with
  | nil => simp [isBlank, List.dropWhile]
  | cons c l ih =>
    have hc : c ≠ '\n' := fun h => hn (by simp [h])
    have := ih (fun h => hn (by simp [h]))
    by_cases hs : isspace c = true
    · simp [isBlank_of_ne c hc, hs, this]
    · simp [isBlank_of_ne c hc, hs]

theorem file_cons (l : Str) (ls : List Str) : file (l :: ls) = l ++ '\n' :: file ls := by
  simp [file]

/-- `next_line` skips to the next line with data. -/
theorem nextLine_file (fuel : Nat) (lines : List Str) (r : Str)
    (hg : ∀ l ∈ lines, GoodLine l) (hf : lines.length < fuel) (l : Str) (ls : List Str)
    (h : lines.dropWhile (fun l => !isData l) = l :: ls) :
    nextLine fuel (file lines ++ r) = some (l.dropWhile isspace ++ ['\n'], file ls ++ r) := by
  induction lines generalizing fuel with
  | nil => simp at h
  | cons a lines ih =>
    cases fuel with
    | zero => simp at hf
    | succ fuel =>
      have ha := hg a (by simp)
      have hfg : fgets 1023 (file (a :: lines) ++ r) = some (a ++ ['\n'], file lines ++ r) := by
        unfold fgets
        rw [file_cons, List.append_assoc, List.cons_append, fgetsGo_line _ _ _ ha.1 (by have := ha.2; omega)]
        simp
      rw [nextLine, hfg]
      dsimp only
      rw [dropWhile_blank a ha.1]
      by_cases hd : isData a = true
      · rw [List.dropWhile_cons_of_neg (by simp [hd])] at h
        obtain ⟨h1, h2⟩ := List.cons.inj h
        subst h1 h2
        rw [if_neg]
        unfold isData at hd
        simp only [Bool.and_eq_true, decide_eq_true_eq] at hd
        rintro (h3 | h3)
        · cases hq : a.dropWhile isspace with
          | nil => exact hd.1 hq
          | cons c s => rw [hq] at h3 hd; simp at h3 hd; exact hd h3
        · cases hq : a.dropWhile isspace with
          | nil => exact hd.1 hq
          | cons c s =>
            rw [hq] at h3
            simp at h3
            exact ha.1 (h3 ▸ (List.dropWhile_sublist isspace).mem (by rw [hq]; simp))
      · rw [List.dropWhile_cons_of_pos (by simp [hd])] at h
        rw [if_pos, ih fuel (fun l hl => hg l (by simp [hl])) (by simpa using hf) h]
        unfold isData at hd
        simp only [Bool.and_eq_true, decide_eq_true_eq, not_and_or, not_not] at hd
        rcases hd with hd | hd
        · right; rw [hd]; rfl
        · left
          cases hq : a.dropWhile isspace with
          | nil => rw [hq] at hd; simp at hd
          | cons c s => rw [hq] at hd; simpa using hd

theorem nextLine_none (fuel : Nat) (lines : List Str) (hg : ∀ l ∈ lines, GoodLine l)
    (h : lines.dropWhile (fun l => !isData l) = []) : nextLine fuel (file lines) = none := by
  induction lines generalizing fuel with
  | nil => cases fuel <;> simp [nextLine, file, fgets]
  | cons a lines ih =>
    cases fuel with
    | zero => rfl
    | succ fuel =>
      have ha := hg a (by simp)
      have hfg : fgets 1023 (file (a :: lines)) = some (a ++ ['\n'], file lines) := by
        unfold fgets
        rw [file_cons, fgetsGo_line _ _ _ ha.1 (by have := ha.2; omega)]
        simp
      have hd : isData a = false := by
        by_contra hd
        rw [List.dropWhile_cons_of_neg (by simpa using hd)] at h
        simp at h
      rw [nextLine, hfg]
      dsimp only
      rw [dropWhile_blank a ha.1]
      rw [List.dropWhile_cons_of_pos (by simp [hd])] at h
      rw [if_pos, ih fuel (fun l hl => hg l (by simp [hl])) h]
      unfold isData at hd
      simp only [Bool.and_eq_false_iff, decide_eq_false_iff_not, not_not] at hd
      rcases hd with hd | hd
      · right; rw [hd]; rfl
      · left
        cases hq : a.dropWhile isspace with
        | nil => rw [hq] at hd; simp at hd
        | cons c s => rw [hq] at hd; simpa using hd

theorem length_le_file (lines : List Str) : lines.length ≤ (file lines).length := by
  induction lines with
  | nil => simp
  | cons a l ih => rw [file_cons]; simp; omega

theorem words_append_newline (s : Str) : words (s ++ ['\n']) = words s := by
  induction hn : s.length using Nat.strong_induction_on generalizing s with
  | _ n ih =>
    by_cases hq : s.dropWhile isspace = []
    · have hall : ∀ c ∈ s, isspace c = true := by
        intro c hc
        exact List.dropWhile_eq_nil_iff.mp hq c hc
      rw [words_eq_nil s hq, words_eq_nil]
      rw [List.dropWhile_eq_nil_iff]
      intro c hc
      rcases List.mem_append.mp hc with h | h
      · exact hall c h
      · simp at h; subst h; decide
    · rw [words_split s hq, ← words_dropWhile (s ++ ['\n'])]
      have hd : (s ++ ['\n']).dropWhile isspace = s.dropWhile isspace ++ ['\n'] := by
        have := List.dropWhile_append (p := isspace) (xs := s) (ys := ['\n'])
        rw [this, if_neg]
        simpa using hq
      rw [hd]
      generalize hq' : s.dropWhile isspace = q at *
      have hqs : q ++ ['\n'] = q.takeWhile (fun c => !isspace c)
          ++ (q.dropWhile (fun c => !isspace c) ++ ['\n']) := by
        rw [← List.append_assoc, List.takeWhile_append_dropWhile]
      have hne : q.takeWhile (fun c => !isspace c) ≠ [] := by
        cases q with
        | nil => exact absurd rfl hq
        | cons c t =>
          have : isspace c = false := by
            have := List.head?_dropWhile_not isspace s
            rw [hq'] at this
            simpa using this
          simp [this]
      have hlen : (q.dropWhile (fun c => !isspace c)).length < n := by
        have h1 := congrArg List.length (List.takeWhile_append_dropWhile
          (p := fun c => !isspace c) (l := q))
        have h2 : q.length ≤ s.length := by
          rw [← hq']; exact (List.dropWhile_sublist isspace).length_le
        have h3 : 0 < (q.takeWhile (fun c => !isspace c)).length := List.length_pos_iff.mpr hne
        rw [List.length_append] at h1
        omega
      rw [hqs, words_word _ _ hne _ _, ih _ hlen _ rfl]
      · intro c hc
        have := List.mem_takeWhile_imp hc
        simpa using this
      · intro c t hct
        cases hr : q.dropWhile (fun c => !isspace c) with
        | nil =>
          rw [hr] at hct
          simp at hct
          rw [← hct.1]; decide
        | cons d u =>
          rw [hr] at hct
          simp at hct
          rw [← hct.1]
          exact takeWhile_rest q d u hr

theorem words_line (l : Str) : words (l.dropWhile isspace ++ ['\n']) = words l := by
  rw [words_append_newline, words_dropWhile]

theorem filter_split (lines : List Str) (l : Str) (ls : List Str)
    (h : lines.dropWhile (fun l => !isData l) = l :: ls) :
    lines.filter isData = l :: ls.filter isData ∧
      ∃ pre, lines = pre ++ l :: ls ∧ pre.filter isData = [] := by
  induction lines with
  | nil => simp at h
  | cons a lines ih =>
    by_cases hd : isData a = true
    · rw [List.dropWhile_cons_of_neg (by simp [hd])] at h
      obtain ⟨rfl, rfl⟩ := List.cons.inj h
      exact ⟨by simp [hd], [], by simp, by simp⟩
    · rw [List.dropWhile_cons_of_pos (by simp [hd])] at h
      obtain ⟨h1, pre, h2, h3⟩ := ih h
      exact ⟨by simp [hd, h1], a :: pre, by simp [h2], by simp [hd, h3]⟩

theorem filter_none (lines : List Str)
    (h : lines.dropWhile (fun l => !isData l) = []) : lines.filter isData = [] := by
  rw [List.dropWhile_eq_nil_iff] at h
  rw [List.filter_eq_nil_iff]
  intro a ha
  have := h a ha
  simpa using this

/-! ## C31 -/

/-- C31 (partial: rows with enough words on lines that fit into the buffer).  The entries of the
    matrix are the first words of the first data lines, in order; blank lines, comment lines and
    text behind the last column are skipped; the reader stops right behind the last row it used;
    a missing row is an error.

    Not covered, because the code is wrong there: rows with too few words
    (`C31_short_row_accepted`, `C31_short_row_undefined`) and lines of more than 1022 characters
    (`C31_long_line`). -/
theorem C31_read_partial (rd : Str → Int) (rows cols : Nat) (lines : List Str)
    (hgood : ∀ l ∈ lines, GoodLine l)
    (hwords : ∀ l ∈ (lines.filter isData).take rows, cols ≤ (words l).length) :
    ((lines.filter isData).length < rows → readOfSize rd rows cols (file lines) = .die) ∧
    (rows ≤ (lines.filter isData).length →
      ∃ used rest, lines = used ++ rest ∧ used.filter isData = (lines.filter isData).take rows ∧
        (∀ l ∈ used.getLast?, isData l) ∧
        readOfSize rd rows cols (file lines) =
          .ok (((lines.filter isData).take rows).map (fun l => ((words l).take cols).map rd),
            file rest)) := by
  unfold readOfSize
  induction rows generalizing lines with
  | zero =>
    exact ⟨fun h => absurd h (by simp), fun _ => ⟨[], lines, by simp, by simp, by simp,
      by simp [readRows]⟩⟩
  | succ rows ih =>
    cases hd : lines.dropWhile (fun l => !isData l) with
    | nil =>
      have hn := nextLine_none ((file lines).length + 1) lines hgood hd
      rw [filter_none lines hd]
      exact ⟨fun _ => by rw [readRows, hn], fun h => absurd h (by simp)⟩
    | cons l ls =>
      have hlen := length_le_file lines
      have hn := nextLine_file ((file lines).length + 1) lines [] hgood (by omega) l ls hd
      simp only [List.append_nil] at hn
      obtain ⟨h1, pre, h2, h3⟩ := filter_split lines l ls hd
      rw [h1] at hwords ⊢
      have hgl : ∀ l ∈ ls, GoodLine l := fun x hx => hgood x (by rw [h2]; simp [hx])
      obtain ⟨ih1, ih2⟩ := ih ls hgl (fun x hx => hwords x (by simp [hx]))
      have hc : readCols rd cols (some (l.dropWhile isspace ++ ['\n'])) none
          = .ok (((words l).take cols).map rd) := by
        have := readCols_ok rd cols (l.dropWhile isspace ++ ['\n']) none
          (by rw [words_line]; exact hwords l (by simp))
        rw [words_line] at this
        exact this
      constructor
      · intro hlt
        rw [readRows, hn]
        dsimp only
        rw [hc, ih1 (by simpa using hlt)]
        rfl
      · intro hle
        obtain ⟨used, rest, e1, e2, e3, e4⟩ := ih2 (by simpa using hle)
        have hdl : isData l = true := by
          have : l ∈ lines.filter isData := by rw [h1]; simp
          exact (List.mem_filter.mp this).2
        refine ⟨pre ++ l :: used, rest, by rw [h2, e1]; simp, ?_, ?_, ?_⟩
        · simp [h3, hdl, e2]
        · intro x hx
          cases used with
          | nil => simp at hx; rw [← hx]; exact hdl
          | cons a as => exact e3 x (by simpa using hx)
        · rw [readRows, hn]
          dsimp only
          rw [hc, e4]
          simp [Out.bind]

/-- Negation of C31: a row with one number too few is accepted, and its last number is used again
    for the missing one. -/
theorem C31_short_row_accepted (rd : Str → Int) (n : Nat) (l w : Str) (hl : GoodLine l)
    (hd : isData l = true) (hn : (words l).length = n + 1) (hw : (words l).getLast? = some w) :
    readOfSize rd 1 (n + 2) (file [l]) = .ok ([(words l).map rd ++ [rd w]], []) := by
  have hdrop : [l].dropWhile (fun l => !isData l) = l :: [] := by simp [hd]
  have hnl := nextLine_file ((file [l]).length + 1) [l] [] (by simpa using hl)
    (by simp [file]) l [] hdrop
  simp only [List.append_nil] at hnl
  unfold readOfSize
  rw [readRows, hnl]
  dsimp only
  have := readCols_short rd n (l.dropWhile isspace ++ ['\n']) w none
    (by rw [words_line]; exact hn) (by rw [words_line]; exact hw)
  rw [words_line] at this
  rw [this]
  simp [Out.bind, readRows, file]

/-- Two numbers for a row of three: the matrix is `[1 2 2]`. -/
theorem C31_short_row_witness :
    readOfSize gmpRead 1 3 "1 2\n".toList = .ok ([[1, 2, 2]], []) := by decide

/-- With two numbers missing the reader runs past the end of the line. -/
theorem C31_short_row_undefined : readOfSize gmpRead 1 4 "10 20\n".toList = .ub := by decide

/-- A line of more than 1022 characters is cut: its second number is not read, the first is
    used twice, and the rest of the line is taken for the next row. -/
theorem C31_long_line :
    readOfSize gmpRead 1 2 ('1' :: (List.replicate 1022 ' ' ++ ['2', '\n'])) =
      .ok ([[1, 1]], ['2', '\n']) := by
  decide +kernel

example : readOfSize gmpRead 2 2 (file ["# size 2".toList, " 1 -2 # x".toList, [], "3 4 5".toList,
    "6 7".toList]) = .ok ([[1, -2], [3, 4]], file ["6 7".toList]) := by decide

example : GoodLine " 1 -2 # x".toList := by unfold GoodLine; decide

/-! ## C48: printing and reading -/

theorem digit_toNat (d : Nat) (h : d < 10) : (Char.ofNat (48 + d)).toNat = 48 + d := by
  interval_cases d <;> decide

theorem digitsVal_snoc (s : Str) (c : Char) :
    digitsVal (s ++ [c]) = digitsVal s * 10 + ((c.toNat : Int) - 48) := by
  simp [digitsVal, List.foldl_append]

theorem natChars_spec (fuel n : Nat) (h : n < fuel) :
    natChars fuel n ≠ [] ∧ (∀ c ∈ natChars fuel n, isdigit c = true) ∧
      digitsVal (natChars fuel n) = n := by
  induction fuel generalizing n with
  | zero => omega
  | succ fuel ih =>
    unfold natChars
    by_cases hn : n < 10
    · rw [if_pos hn]
      refine ⟨by simp, ?_, ?_⟩
      · intro c hc
        simp only [List.mem_singleton] at hc
        subst hc
        simp [isdigit, digit_toNat n hn]
        omega
      · simp [digitsVal, digit_toNat n hn]
    · rw [if_neg hn]
      obtain ⟨h1, h2, h3⟩ := ih (n / 10) (by omega)
      have hm : n % 10 < 10 := Nat.mod_lt _ (by omega)
      refine ⟨by simp, ?_, ?_⟩
      · intro c hc
        rcases List.mem_append.mp hc with h4 | h4
        · exact h2 c h4
        · simp only [List.mem_singleton] at h4
          subst h4
          simp [isdigit, digit_toNat _ hm]
          omega
      · rw [digitsVal_snoc, h3, digit_toNat _ hm]
        push_cast
        omega

theorem printNat_spec (n : Nat) : printNat n ≠ [] ∧ (∀ c ∈ printNat n, isdigit c = true) ∧
    digitsVal (printNat n) = n := natChars_spec (n + 1) n (by omega)

theorem not_space_of_digit (c : Char) (h : isdigit c = true) : ¬ isspace c = true := by
  simp only [isdigit, Bool.and_eq_true, decide_eq_true_eq] at h
  intro hs
  simp only [isspace, Bool.or_eq_true, decide_eq_true_eq] at hs
  rcases hs with ((((hs | hs) | hs) | hs) | hs) | hs <;> first | omega | (subst hs; revert h; decide)

theorem printInt_ne (x : Int) : printInt x ≠ [] := by
  unfold printInt
  split
  · simp
  · exact (printNat_spec _).1

theorem printInt_chars (x : Int) : ∀ c ∈ printInt x, isdigit c = true ∨ c = '-' := by
  intro c hc
  unfold printInt at hc
  split at hc
  · rcases List.mem_cons.mp hc with h | h
    · exact .inr h
    · exact .inl ((printNat_spec _).2.1 c h)
  · exact .inl ((printNat_spec _).2.1 c hc)

theorem printInt_not_space (x : Int) : ∀ c ∈ printInt x, ¬ isspace c = true := by
  intro c hc
  rcases printInt_chars x c hc with h | h
  · exact not_space_of_digit c h
  · subst h; decide

theorem head_digit {s : Str} (hne : s ≠ []) (h : ∀ c ∈ s, isdigit c = true) (d : Char)
    (hd : isdigit d = false) : s.head? ≠ some d := by
  cases s with
  | nil => exact absurd rfl hne
  | cons c s =>
    intro he
    simp at he
    have := h c (by simp)
    rw [he, hd] at this
    exact absurd this (by simp)

/-- With GMP every printed integer is read back. -/
theorem gmpRead_printInt (x : Int) : gmpRead (printInt x) = x := by
  obtain ⟨h1, h2, h3⟩ := printNat_spec x.natAbs
  have hall : (printNat x.natAbs).all isdigit = true := List.all_eq_true.mpr h2
  by_cases hx : x < 0
  · have he : printInt x = '-' :: printNat x.natAbs := by simp [printInt, hx]
    simp only [gmpRead, he, List.head?_cons, if_true, List.tail_cons]
    rw [if_pos ⟨h1, hall⟩, h3]
    omega
  · have he : printInt x = printNat x.natAbs := by simp [printInt, hx]
    have hm := head_digit h1 h2 '-' (by decide)
    simp only [gmpRead, he]
    rw [if_neg hm, if_neg hm, if_pos ⟨h1, hall⟩, h3]
    omega

/-- With machine integers every printed `long long` is read back. -/
theorem llRead_printInt (x : Int) (h1 : - 2 ^ 63 ≤ x) (h2 : x ≤ 2 ^ 63 - 1) :
    llRead (printInt x) = x := by
  obtain ⟨g1, g2, g3⟩ := printNat_spec x.natAbs
  have htw : (printNat x.natAbs).takeWhile isdigit = printNat x.natAbs :=
    List.takeWhile_eq_self_iff.mpr g2
  have hdw : (printInt x).dropWhile isspace = printInt x := by
    cases hp : printInt x with
    | nil => rfl
    | cons c s =>
      rw [List.dropWhile_cons_of_neg]
      exact printInt_not_space x c (by rw [hp]; simp)
  have hs : signedVal (printInt x) = x := by
    by_cases hx : x < 0
    · have he : printInt x = '-' :: printNat x.natAbs := by simp [printInt, hx]
      simp only [signedVal, he, List.head?_cons, if_true, List.tail_cons]
      rw [htw, g3]
      omega
    · have he : printInt x = printNat x.natAbs := by simp [printInt, hx]
      simp only [signedVal, he]
      rw [if_neg (head_digit g1 g2 '-' (by decide)), if_neg (head_digit g1 g2 '+' (by decide)),
        htw, g3]
      omega
  unfold llRead strtol
  rw [hdw, hs]
  unfold saturate
  split
  · omega
  · split <;> omega

theorem natChars_length (fuel n k : Nat) (h : n < 10 ^ (k + 1)) :
    (natChars fuel n).length ≤ k + 1 := by
  induction fuel generalizing n k with
  | zero => simp [natChars]
  | succ fuel ih =>
    unfold natChars
    by_cases hn : n < 10
    · simp [hn]
    · rw [if_neg hn]
      cases k with
      | zero => simp at h; omega
      | succ k =>
        have := ih (n / 10) k (by rw [pow_succ] at h; omega)
        simp
        omega

theorem printNat_length (n : Nat) (h : n < 2 ^ 32) : (printNat n).length ≤ 100 := by
  have := natChars_length (n + 1) n 9 (by omega)
  unfold printNat
  omega

/-- The text of a row without the newline. -/
def rowText (row : List Int) : Str := row.flatMap (fun x => printInt x ++ [' '])

theorem words_rowText (row : List Int) : words (rowText row) = row.map printInt := by
  induction row with
  | nil => simp [rowText, words_nil]
  | cons x row ih =>
    have : rowText (x :: row) = printInt x ++ ' ' :: rowText row := by simp [rowText]
    rw [this, words_word _ _ (printInt_ne x) (printInt_not_space x)
      (fun c s h => by obtain ⟨rfl, _⟩ := List.cons.inj h; decide),
      words_cons_space _ _ (by decide), ih]
    rfl

theorem rowText_no_newline (row : List Int) : '\n' ∉ rowText row := by
  simp only [rowText, List.mem_flatMap, not_exists, not_and]
  intro x _ hm
  rcases List.mem_append.mp hm with h | h
  · exact printInt_not_space x _ h (by decide)
  · revert h; decide

theorem isData_rowText (row : List Int) (h : row ≠ []) : isData (rowText row) = true := by
  cases row with
  | nil => exact absurd rfl h
  | cons x row =>
    have he : rowText (x :: row) = printInt x ++ ' ' :: rowText row := by simp [rowText]
    cases hp : printInt x with
    | nil => exact absurd hp (printInt_ne x)
    | cons c s =>
      have hc : c ∈ printInt x := by rw [hp]; simp
      have hd : (rowText (x :: row)).dropWhile isspace = c :: (s ++ ' ' :: rowText row) := by
        rw [he, hp, List.cons_append, List.dropWhile_cons_of_neg (printInt_not_space x c hc)]
      have : c ≠ '#' := by
        rcases printInt_chars x c hc with h' | h'
        · rintro rfl; revert h'; decide
        · rintro rfl; revert h'; decide
      simp [isData, hd, this]

theorem nextLine_one (l r : Str) (hg : GoodLine l) (hd : isData l = true) :
    nextLine ((l ++ '\n' :: r).length + 1) (l ++ '\n' :: r) =
      some (l.dropWhile isspace ++ ['\n'], r) := by
  have := nextLine_file ((l ++ '\n' :: r).length + 1) [l] r (by simpa using hg)
    (by simp) l [] (by simp [hd])
  simpa [file] using this

theorem readRows_print (rd : Str → Int) (cols : Nat) (m : List (List Int)) (r : Str)
    (hcols : 1 ≤ cols) (hm : ∀ row ∈ m, row.length = cols ∧ (rowText row).length ≤ 1022)
    (hrd : ∀ row ∈ m, ∀ x ∈ row, rd (printInt x) = x) :
    readRows rd m.length cols (m.flatMap printRow ++ r) = .ok (m, r) := by
  induction m with
  | nil => simp [readRows]
  | cons row m ih =>
    obtain ⟨h1, h2⟩ := hm row (by simp)
    have hne : row ≠ [] := by rintro rfl; simp at h1; omega
    have he : (row :: m).flatMap printRow ++ r
        = rowText row ++ '\n' :: (m.flatMap printRow ++ r) := by
      simp [printRow, rowText]
    have hc : readCols rd cols (some ((rowText row).dropWhile isspace ++ ['\n'])) none
        = .ok row := by
      rw [readCols_ok rd cols _ none (by rw [words_line, words_rowText]; simp [h1]), words_line,
        words_rowText, ← h1]
      congr 1
      rw [List.take_of_length_le (by simp), List.map_map]
      conv_rhs => rw [← List.map_id row]
      exact List.map_congr_left (fun x hx => hrd row (by simp) x hx)
    rw [he, List.length_cons, readRows,
      nextLine_one _ _ ⟨rowText_no_newline row, h2⟩ (isData_rowText row hne)]
    dsimp only
    rw [hc, ih (fun x hx => hm x (by simp [hx])) (fun x hx => hrd x (by simp [hx]))]
    rfl

theorem scanUnsigned_print (n : Nat) (hn : n < 2 ^ 32) (sp r : Str)
    (hsp : ∀ c ∈ sp, isspace c = true) (hr : ∀ c s, r = c :: s → isdigit c = false) :
    scanUnsigned (sp ++ printNat n ++ r) = some (n, r) := by
  obtain ⟨h1, h2, h3⟩ := printNat_spec n
  have hd : (sp ++ printNat n ++ r).dropWhile isspace = printNat n ++ r := by
    rw [List.append_assoc, List.dropWhile_append_of_pos hsp]
    cases hp : printNat n with
    | nil => exact absurd hp h1
    | cons c s =>
      rw [List.cons_append, List.dropWhile_cons_of_neg]
      exact not_space_of_digit c (h2 c (by rw [hp]; simp))
  have ht : r.takeWhile isdigit = [] ∧ r.dropWhile isdigit = r := by
    cases r with
    | nil => simp
    | cons c s => simp [hr c s rfl]
  unfold scanUnsigned
  dsimp only
  rw [hd, List.takeWhile_append_of_pos h2, List.dropWhile_append_of_pos h2, ht.1, ht.2]
  simp [h1, h3]
  exact hn

/-- C48: what `cloog_matrix_print` writes, `cloog_matrix_read` reads back, and it leaves the rest
    of the input alone, whatever follows.  The matrix has at least one column and every row fits
    into the line buffer. -/
theorem C48_round_trip (rd : Str → Int) (cols : Nat) (m : List (List Int)) (r : Str)
    (hcols : 1 ≤ cols) (hc32 : cols < 2 ^ 32) (hr32 : m.length < 2 ^ 32)
    (hm : ∀ row ∈ m, row.length = cols ∧ (printRow row).length ≤ 1023)
    (hrd : ∀ row ∈ m, ∀ x ∈ row, rd (printInt x) = x) :
    readMatrix rd (printMatrix cols m ++ r) = .ok (m, r) := by
  obtain ⟨a1, a2, _⟩ := printNat_spec m.length
  obtain ⟨b1, b2, _⟩ := printNat_spec cols
  have hrow : ∀ row, (printRow row).length = (rowText row).length + 1 := by
    intro row; simp [printRow, rowText]
  have hlen : ∀ n, n < 2 ^ 32 → (printNat n).length ≤ 100 := by
    intro n hn
    exact printNat_length n hn
  have he : printMatrix cols m ++ r
      = (printNat m.length ++ ' ' :: printNat cols) ++ '\n' :: (m.flatMap printRow ++ r) := by
    simp [printMatrix]
  have hg : GoodLine (printNat m.length ++ ' ' :: printNat cols) := by
    constructor
    · intro h
      rcases List.mem_append.mp h with h | h
      · exact not_space_of_digit _ (a2 _ h) (by decide)
      · rcases List.mem_cons.mp h with h | h
        · revert h; decide
        · exact not_space_of_digit _ (b2 _ h) (by decide)
    · have := hlen _ hc32
      have := hlen _ hr32
      simp
      omega
  have hdrop : (printNat m.length ++ ' ' :: printNat cols).dropWhile isspace
      = printNat m.length ++ ' ' :: printNat cols := by
    cases hp : printNat m.length with
    | nil => exact absurd hp a1
    | cons c s =>
      rw [List.cons_append, List.dropWhile_cons_of_neg]
      exact not_space_of_digit c (a2 c (by rw [hp]; simp))
  have hd : isData (printNat m.length ++ ' ' :: printNat cols) = true := by
    unfold isData
    rw [hdrop]
    cases hp : printNat m.length with
    | nil => exact absurd hp a1
    | cons c s =>
      have : c ≠ '#' := by
        rintro rfl
        have := a2 '#' (by rw [hp]; simp)
        revert this; decide
      simp [this]
  unfold readMatrix
  rw [he, nextLine_one _ _ hg hd]
  dsimp only
  rw [hdrop]
  have s1 := scanUnsigned_print m.length hr32 [] (' ' :: (printNat cols ++ ['\n']))
    (by simp) (fun c s h => by obtain ⟨rfl, _⟩ := List.cons.inj h; decide)
  have s2 := scanUnsigned_print cols hc32 [' '] ['\n']
    (by simp; decide) (fun c s h => by obtain ⟨rfl, _⟩ := List.cons.inj h; decide)
  simp only [List.nil_append] at s1
  simp only [List.cons_append, List.nil_append] at s2
  rw [List.append_assoc, List.cons_append, s1]
  dsimp only
  rw [s2]
  exact readRows_print rd cols m r hcols (fun row h => ⟨(hm row h).1, by
    have := (hm row h).2; rw [hrow] at this; omega⟩) hrd

/-- C48 for the two number types. -/
theorem C48_gmp (cols : Nat) (m : List (List Int)) (r : Str)
    (hcols : 1 ≤ cols) (hc32 : cols < 2 ^ 32) (hr32 : m.length < 2 ^ 32)
    (hm : ∀ row ∈ m, row.length = cols ∧ (printRow row).length ≤ 1023) :
    readMatrix gmpRead (printMatrix cols m ++ r) = .ok (m, r) :=
  C48_round_trip gmpRead cols m r hcols hc32 hr32 hm (fun _ _ x _ => gmpRead_printInt x)

theorem C48_long_long (cols : Nat) (m : List (List Int)) (r : Str)
    (hcols : 1 ≤ cols) (hc32 : cols < 2 ^ 32) (hr32 : m.length < 2 ^ 32)
    (hm : ∀ row ∈ m, row.length = cols ∧ (printRow row).length ≤ 1023)
    (hx : ∀ row ∈ m, ∀ x ∈ row, - 2 ^ 63 ≤ x ∧ x ≤ 2 ^ 63 - 1) :
    readMatrix llRead (printMatrix cols m ++ r) = .ok (m, r) :=
  C48_round_trip llRead cols m r hcols hc32 hr32 hm
    (fun row h x h' => llRead_printInt x (hx row h x h').1 (hx row h x h').2)

/-- Why a column is required: a printed matrix without columns cannot be read. -/
theorem C48_no_columns : readMatrix gmpRead (printMatrix 0 [[], []]) = .die := by decide

/-- Why the rows have to fit into the buffer: a row of 513 digits takes 1027 characters, and the
    reader takes the last one from the number before it; the cut off characters stay in the
    input. -/
theorem C48_long_row :
    readMatrix gmpRead (printMatrix 513 [List.replicate 512 1 ++ [2]]) =
      .ok ([List.replicate 513 1], [' ', '2', ' ', '\n']) := by
  decide +kernel

example : readMatrix gmpRead (printMatrix 3 [[1, -20, 3], [0, 100, -7]] ++ "tail".toList) =
    .ok ([[1, -20, 3], [0, 100, -7]], "tail".toList) := by decide

end Verif.Props.Matrix
