import Verif.Model.ProgDump
import Verif.Props.InputEx

/-!
# C77: a program dumped as an input file

`cloog_program_dump_cloog` writes an input file for a program.  The file is read again with
`cloog_input_read`.  The comments of the function say that it rebuilds "almost exactly" the data structure
if the program is dumped before loop generation, with `-noscalars`.

Full statement (false): the file is read as the statements, domains, names and scatterings of the
program.  Proved: the file of a program with at least one loop, whose context is one polyhedron and whose
first scattering (if any) is one polyhedron, is read as the domains of its *loops*, its names and its
scatterings.  So statements that share a block are lost (`C77_blocks_lost`); a program without statements
gives a file that is refused (`C77_no_statements`); of a first scattering with several polyhedra only one
is kept (`C77_union_scattering`).
-/

namespace Verif.Props.ProgDump
open Verif.Options Verif.Matrix Verif.Names Verif.UnionDomain Verif.Input Verif.ProgDump
open Verif.Props.Matrix Verif.Props.UnionDomain Verif.Props.Input Verif.Props.InputEx

variable {R : Type}

/-! ## Specification -/

/-- How isl prints and reads: see `IslText`; the text of a relation is the number of its polyhedra and the
    polyhedra; one polyhedron can be read without the number. -/
structure IslDumpText (o : IslDump R) : Prop where
  text : IslText o.toIsl
  number : ∀ r, o.wr r = printNat (o.pieces r) ++ '\n' :: o.body r
  one : ∀ r, o.pieces r = 1 → ∀ rest, o.rd (o.body r ++ rest) = some (r, rest)

/-- The programs and scatterings whose dump can be read again. -/
structure ProgOK (o : IslDump R) (p : Prog R) (scat : List R) : Prop where
  /-- the context is printed and read in the old format: all its columns are parameters -/
  ctx : ∃ t r, o.old p.context = some t ∧ Parses o.toIsl t r ∧ o.toParam r 0 (o.nout r) = some p.context
  /-- there is a name for each parameter, iterator and scattering dimension -/
  params : o.np p.context = p.params.length
  doms : ∀ d ∈ p.loops.map Prod.fst, o.np d = p.params.length
  iters : largest ((p.loops.map Prod.fst).map o.nout) = (iterNames p scat).length
  scats : scat ≠ [] → largest (scat.map o.nout) = p.scats.length
  /-- there is a loop -/
  some : p.loops ≠ []
  /-- the scatterings fit to the loops -/
  fit : scat ≠ [] → List.Forall₂ (fun d s => o.np s = p.params.length ∧ o.nin s = o.nout d) (p.loops.map Prod.fst) scat
  /-- the first scattering is one polyhedron -/
  first : ∀ s, scat.head? = Option.some s → o.pieces s = 1
  /-- the names can be written and the names of one kind fit on a line -/
  names : ∀ l ∈ [p.params, iterNames p scat, p.scats], (∀ x ∈ l, GoodName x) ∧
    (l.map fun x => (x.getD []).length + 1).sum ≤ 1022
  /-- the number of loops is an `int` -/
  few : p.loops.length < 2 ^ 31

/-- Names as they are kept: nothing for an empty list. -/
def optNames (l : List (Option CStr)) : Option (List (Option CStr)) := if l = [] then none else some l

/-- The input with the domains of the loops, the names and the scatterings of a program. -/
def asInput (p : Prog R) (scat : List R) : Input R where
  language := p.language
  context := p.context
  ud :=
    { n := fun t => match t with
        | .param => p.params.length
        | .iter => (iterNames p scat).length
        | .scat => if scat = [] then 0 else p.scats.length
      names := fun t => match t with
        | .param => optNames p.params
        | .iter => optNames (iterNames p scat)
        | .scat => if scat = [] then none else optNames p.scats
      domains := if scat = [] then (p.loops.map Prod.fst).map fun d => ⟨none, d, none, ()⟩
        else List.zipWith (fun d s => ⟨none, d, some s, ()⟩) (p.loops.map Prod.fst) scat }

/-! ## The parts of the file -/

theorem parses_line {o : Isl R} (ho : IslText o) (l : Str) (hl : '\n' ∉ l) {t : Str} {r : R} (h : Parses o t r) :
    Parses o ('\n' :: ('#' :: l ++ '\n' :: t)) r := by
  intro rest
  have : '\n' :: ('#' :: l ++ '\n' :: t) ++ rest = '\n' :: ('#' :: l ++ '\n' :: (t ++ rest)) := by simp
  rw [this, ho.blank, ho.comment l _ hl, h]

/-- The line with the option for names of a kind. -/
def optLine (what : Str) : Str := '1' :: (" # ".toList ++ what ++ " name(s)".toList)

/-- The names of one kind in the file, before the end of the line. -/
theorem names_sec (l : List (Option CStr)) (what : Str) (hw : what.all (· != '\n') = true)
    (hw2 : what.length ≤ 100) (hn : (∀ x ∈ l, GoodName x) ∧ (l.map fun x => (x.getD []).length + 1).sum ≤ 1022)
    (pre : List Str) (hpre : ∀ x ∈ pre, GoodLine x ∧ Silent x) :
    (l = [] → NamesSec (l.length : Nat) (pre ++ [optLine what]) none) ∧
    (l ≠ [] → NamesSec (l.length : Nat) ((pre ++ [optLine what]) ++ [nameWords l]) (some (wordsOf l))) := by
  have hp1 : printNat 1 = ['1'] := by decide
  have hg : GoodLine (optLine what) := by
    refine good_small ?_ ?_
    · simp only [optLine, List.all_cons, List.all_append, hw, Bool.and_true]; decide
    · simp only [optLine, List.length_cons, List.length_append]
      have : " # ".toList.length = 3 := by decide
      have : " name(s)".toList.length = 8 := by decide
      omega
  have hnum : Number (optLine what) ((1 : Nat) : Int) := by
    have := number_text 1 (" # ".toList ++ what ++ " name(s)".toList) (by
      intro c hc
      simp at hc
      subst hc; decide) (by omega)
    rw [hp1] at this
    exact this
  constructor
  · rintro rfl
    exact .off hpre hg hnum (.inl rfl)
  · intro hne
    have hpos : 0 < l.length := List.length_pos_iff.2 hne
    obtain ⟨i1, i2, i3, i4⟩ := names_line l hn.1
    have := NamesSec.on (nb := (l.length : Nat)) (pre := pre) (cs := []) (extra := []) (ns := wordsOf l)
      (opt := optLine what) (w := nameWords l) (k := 1) hpre hg hnum (by omega) (by simp)
      ⟨i2, by unfold nameWords; rw [i3]; exact hn.2⟩ (names_data l hn.1 hne)
      (by unfold nameWords; rw [i1]; simp) i4 (by omega) (by simp [wordsOf])
    simpa using this

/-- The words of the names that are read. -/
def optWords (l : List (Option CStr)) : Option (List Str) := if l = [] then none else some (wordsOf l)

/-- The names of one kind with the end of the line: lines of the section and maybe a blank line. -/
theorem names_text (l : List (Option CStr)) (what : Str) (hw : what.all (· != '\n') = true)
    (hw2 : what.length ≤ 100) (hn : (∀ x ∈ l, GoodName x) ∧ (l.map fun x => (x.getD []).length + 1).sum ≤ 1022) :
    ∃ P B : List Str, (∀ x ∈ B, x = []) ∧
      (∀ pre, (∀ x ∈ pre, GoodLine x ∧ Silent x) → NamesSec (l.length : Nat) (pre ++ P) (optWords l)) ∧
      ∀ X, optLine what ++ '\n' :: (nameWords l ++ '\n' :: X) = file P ++ (file B ++ X) := by
  by_cases h : l = []
  · refine ⟨[optLine what], [[]], by simp, ?_, ?_⟩
    · intro pre hpre
      have := (names_sec l what hw hw2 hn pre hpre).1 h
      simpa [optWords, h] using this
    · intro X
      subst h
      simp [file, nameWords]
  · refine ⟨[optLine what, nameWords l], [], by simp, ?_, ?_⟩
    · intro pre hpre
      have := (names_sec l what hw hw2 hn pre hpre).2 h
      simpa [optWords, h] using this
    · intro X
      simp [file]

theorem blank_silent {B : List Str} (h : ∀ x ∈ B, x = []) : ∀ x ∈ B, GoodLine x ∧ Silent x := by
  intro x hx
  rw [h x hx]
  exact ⟨good_nil, silent_nil⟩

theorem blank_noData {B : List Str} (h : ∀ x ∈ B, x = []) : ∀ x ∈ B, GoodLine x ∧ isData x = false := by
  intro x hx
  rw [h x hx]
  exact ⟨good_nil, by decide⟩

theorem three_here : DataSec Three ["0 0 0 # For future options.".toList] := by
  refine DataSec.mk (pre := []) (l := "0 0 0 # For future options.".toList) (by simp) ?_ (by decide) ?_
  · exact good_small (by decide) (by decide)
  · exact ⟨0, 0, 0, [], [' '], [' '], " # For future options.".toList, by decide +kernel, by decide, by decide, by decide⟩

theorem loopTexts_text {o : IslDump R} (ho : IslDumpText o) (nb : Nat) : ∀ (ds : List R) (i : Nat),
    (∀ d ∈ ds, o.np d = nb) →
    ∃ D, DomText o.toIsl nb ds D ∧ ∀ X, '\n' :: (loopTexts o i ds ++ X) = D ++ '\n' :: X
  | [], i, _ => ⟨[], .nil, fun X => by rw [show loopTexts o i [] = [] from rfl]; rfl⟩
  | d :: ds, i, h1 => by
    obtain ⟨D, hD, hX⟩ := loopTexts_text ho nb ds (i + 1) (fun b hb => h1 b (by simp [hb]))
    let cm : Str := " Iteration domain of statement ".toList ++ printNat i ++ ".".toList
    have hcm : '\n' ∉ cm := by
      have e1 := digits_nl i
      have e3 : '\n' ∉ " Iteration domain of statement ".toList := by decide
      have e5 : '\n' ∉ ".".toList := by decide
      simp only [cm, List.mem_append, not_or]
      exact ⟨⟨e3, e1⟩, e5⟩
    have hdom : ParsesDom o.toIsl nb ('\n' :: ('#' :: cm ++ '\n' :: o.wr d)) d :=
      ⟨d, parses_line ho.text cm hcm (ho.text.print d), by rw [if_pos (h1 d (by simp))]⟩
    refine ⟨('\n' :: ('#' :: cm ++ '\n' :: o.wr d)) ++ (file ["0 0 0 # For future options.".toList] ++ D),
      DomText.cons hdom three_here hD, ?_⟩
    intro X
    have e1 : "# Iteration domain of statement ".toList = '#' :: " Iteration domain of statement ".toList := by decide
    have e2 : ".\n".toList = ".".toList ++ ['\n'] := by decide
    have e3 : "0 0 0 # For future options.\n\n".toList =
      file ["0 0 0 # For future options.".toList] ++ ['\n'] := by decide
    have e0 : loopTexts o i (d :: ds) = "# Iteration domain of statement ".toList ++ printNat i ++
      ".\n".toList ++ o.wr d ++ "0 0 0 # For future options.\n\n".toList ++ loopTexts o (i + 1) ds := rfl
    rw [e0, e1, e2, e3]
    simp only [List.append_assoc, List.cons_append, List.nil_append, List.singleton_append, cm]
    rw [hX X]

theorem scats_text {o : IslDump R} (ho : IslDumpText o) (nb : Nat) : ∀ (ds ss : List R),
    (∀ d ∈ ds, o.np d = nb) → List.Forall₂ (fun d s => o.np s = nb ∧ o.nin s = o.nout d) ds ss →
    ScatText o.toIsl ds ss (ss.flatMap o.wr)
  | _, _, _, .nil => .nil
  | _ :: _, s :: _, hd, .cons h1 h2 => by
    rw [List.flatMap_cons]
    refine .cons ⟨s, s, ho.text.print s, ?_, ?_⟩ (scats_text ho nb _ _ (fun d h => hd d (by simp [h])) h2)
    · rw [if_pos (by rw [h1.1, hd _ (by simp)])]
    · rw [if_pos h1.2]

/-- The scatterings behind the number of polyhedra of the first one. -/
theorem scats_text_first {o : IslDump R} (ho : IslDumpText o) (nb : Nat) : ∀ (ds : List R) (s : R) (ss : List R),
    (∀ d ∈ ds, o.np d = nb) → List.Forall₂ (fun d s => o.np s = nb ∧ o.nin s = o.nout d) ds (s :: ss) →
    o.pieces s = 1 → ScatText o.toIsl ds (s :: ss) (o.body s ++ ss.flatMap o.wr)
  | _ :: _, s, _, hd, .cons h1 h2, h => by
    refine .cons ⟨s, s, ho.one s h, ?_, ?_⟩ (scats_text ho nb _ _ (fun d h => hd d (by simp [h])) h2)
    · rw [if_pos (by rw [h1.1, hd _ (by simp)])]
    · rw [if_pos h1.2]

theorem forall₂_length {α β : Type} {P : α → β → Prop} : ∀ {l : List α} {m : List β}, List.Forall₂ P l m → l.length = m.length
  | _, _, .nil => rfl
  | _, _, .cons _ h => by simp [forall₂_length h]

/-- The lines before the context. -/
def progHead (l : Language) : List Str :=
  ["# CLooG -> CLooG".toList, "# This is an automatic dump of a CLooG input file from a CloogProgram data".toList,
   "# structure. WARNING: it is highly dangerous and MAY be correct ONLY if".toList,
   "# - it has been dumped before loop generation.".toList,
   "# - option -noscalars is used (it removes scalar dimensions otherwise)".toList,
   "# - option -l is at least the original scattering dimension number".toList,
   "# ASK THE AUTHOR IF YOU *NEED* SOMETHING MORE ROBUST".toList,
   if l = .fortran then "# Language: FORTRAN".toList else "# Language: C".toList]

theorem progHead_sec (l : Language) :
    DataSec (fun x => x.head? = some (if l = .fortran then 'f' else 'c')) (progHead l ++ [if l = .fortran then ['f'] else ['c']]) := by
  refine .mk ?_ ?_ ?_ ?_
  · have : ∀ x ∈ progHead l, x.all (· != '\n') = true ∧ x.length ≤ 1022 ∧ isData x = false := by
      cases l <;> decide +kernel
    intro x hx
    obtain ⟨a, b, c⟩ := this x hx
    exact ⟨good_small a b, c⟩
  · cases l <;> exact good_small (by decide) (by decide)
  · cases l <;> decide
  · cases l <;> rfl

theorem head_text (l : Language) : header ++ dumpLanguage l =
    file (progHead l ++ [if l = .fortran then ['f'] else ['c']]) ++ ['\n'] := by
  cases l <;> decide +kernel

/-- The part of the file before the scatterings. -/
theorem front {o : IslDump R} (ho : IslDumpText o) {p : Prog R} {scat : List R}
    (hctx : ∃ t r, o.old p.context = some t ∧ Parses o.toIsl t r ∧ o.toParam r 0 (o.nout r) = some p.context)
    (hnp : o.np p.context = p.params.length)
    (hdoms : ∀ d ∈ p.loops.map Prod.fst, o.np d = p.params.length)
    (hnames : ∀ l ∈ [p.params, iterNames p scat], (∀ x ∈ l, GoodName x) ∧
      (l.map fun x => (x.getD []).length + 1).sum ≤ 1022)
    (hfew : p.loops.length < 2 ^ 31) :
    ∃ (tctx : Str) (r : R) (P C I B : List Str) (D : Str), Parses o.toIsl tctx r ∧
      o.toParam r 0 (o.nout r) = some p.context ∧
      NamesSec (o.np p.context) P (optWords p.params) ∧
      DataSec (fun l => Number l (p.loops.map Prod.fst).length) C ∧
      DomText o.toIsl (o.np p.context) (p.loops.map Prod.fst) D ∧
      NamesSec ((iterNames p scat).length : Nat) I (optWords (iterNames p scat)) ∧
      (∃ pre, I = pre ++ [optLine "Iterator".toList] ++ (if iterNames p scat = [] then [] else [nameWords (iterNames p scat)]) ∧
        ∀ x ∈ pre, x = []) ∧
      (∀ x ∈ B, x = []) ∧
      progDump o p scat = some (file (progHead p.language ++ [if p.language = .fortran then ['f'] else ['c']]) ++
        (tctx ++ (file P ++ (file C ++ (D ++ (file I ++ (file B ++ scatText o p scat))))))) := by
  obtain ⟨t, r, h1, h2, h3⟩ := hctx
  obtain ⟨P, B1, b1, p1, p2⟩ := names_text p.params "Parameter".toList (by decide) (by decide) (hnames _ (by simp))
  obtain ⟨D, d1, d2⟩ := loopTexts_text ho p.params.length (p.loops.map Prod.fst) 1 hdoms
  have hI : ∃ I B : List Str, (∀ x ∈ B, x = []) ∧ NamesSec ((iterNames p scat).length : Nat) I (optWords (iterNames p scat)) ∧
      (∃ pre, I = pre ++ [optLine "Iterator".toList] ++ (if iterNames p scat = [] then [] else [nameWords (iterNames p scat)]) ∧
        ∀ x ∈ pre, x = []) ∧
      ∀ X, '\n' :: ('\n' :: (optLine "Iterator".toList ++ '\n' :: (nameWords (iterNames p scat) ++ '\n' :: X))) =
        file I ++ (file B ++ X) := by
    have hs := names_sec (iterNames p scat) "Iterator".toList (by decide) (by decide) (hnames _ (by simp)) [[], []]
      (blank_silent (by simp))
    by_cases h : iterNames p scat = []
    · refine ⟨[[], [], optLine "Iterator".toList], [[]], by simp, ?_, ⟨[[], []], by simp [h], by simp⟩, ?_⟩
      · have := hs.1 h
        simpa [optWords, h] using this
      · intro X
        rw [h]
        simp [file, nameWords]
    · refine ⟨[[], [], optLine "Iterator".toList, nameWords (iterNames p scat)], [], by simp, ?_,
        ⟨[[], []], by simp [h], by simp⟩, ?_⟩
      · have := hs.2 h
        simpa [optWords, h] using this
      · intro X
        simp [file]
  obtain ⟨I, B, b2, i1, i2, i3⟩ := hI
  let cm : Str := " Context (".toList ++ printNat p.params.length ++ " parameter(s)):".toList
  have hcm : '\n' ∉ cm := by
    have e1 := digits_nl p.params.length
    have e3 : '\n' ∉ " Context (".toList := by decide
    have e5 : '\n' ∉ " parameter(s)):".toList := by decide
    simp only [cm, List.mem_append, not_or]
    exact ⟨⟨e3, e1⟩, e5⟩
  have hlen : (p.loops.map Prod.fst).length = p.loops.length := by simp
  have hC : DataSec (fun l => Number l (p.loops.map Prod.fst).length)
      (B1 ++ [[], "# Statement number:".toList] ++ [printNat p.loops.length]) := by
    have hnum : Number (printNat p.loops.length) (p.loops.length : Int) := by
      have := number_text p.loops.length [] (by simp) hfew
      simpa using this
    refine DataSec.mk ?_ ?_ hnum.data (by rw [hlen]; exact hnum)
    · intro l hl
      rcases List.mem_append.1 hl with hl | hl
      · exact blank_noData b1 l hl
      · simp only [List.mem_cons, List.not_mem_nil, or_false] at hl
        rcases hl with rfl | rfl
        · exact ⟨good_nil, by decide⟩
        · exact ⟨good_small (by decide) (by decide), by decide⟩
    · exact ⟨digits_nl _, by have := printNat_length p.loops.length (by omega); omega⟩
  refine ⟨'\n' :: ('#' :: cm ++ '\n' :: t), r, P, _, I, B ++ [[]], D, parses_line ho.text cm hcm h2, h3, ?_, hC, ?_, i1, i2,
    by intro x hx; rcases List.mem_append.1 hx with hx | hx; exacts [b2 x hx, by simpa using hx], ?_⟩
  · rw [hnp]; exact p1 [] (by simp)
  · rw [hnp]; exact d1
  · unfold progDump
    rw [h1, Option.map_some, Option.some.injEq]
    have g1 : "# Context (".toList = '#' :: " Context (".toList := by decide
    have g2 : " parameter(s)):\n".toList = " parameter(s)):".toList ++ ['\n'] := by decide
    have g3 : "1 # Parameter name(s)\n".toList = optLine "Parameter".toList ++ ['\n'] := by decide
    have g4 : "\n\n# Statement number:\n".toList = '\n' :: ('\n' :: ("# Statement number:".toList ++ ['\n'])) := by decide
    have g5 : "\n\n".toList = ['\n', '\n'] := by decide
    have g6 : "\n1 # Iterator name(s)\n".toList = '\n' :: (optLine "Iterator".toList ++ ['\n']) := by decide
    have e1 := fun X => p2 X
    rw [head_text, g1, g2, g3, g4, g5, g6]
    simp only [List.append_assoc, List.cons_append, List.nil_append, List.singleton_append] at e1 ⊢
    rw [p2, d2, i3]
    simp only [file_append, file_cons, cm, List.append_assoc, List.cons_append, List.nil_append]
    simp [file]

theorem optWords_names {l : List (Option CStr)} (h : ∀ x ∈ l, GoodName x) :
    ((optWords l).map fun l => l.map fun w => some (w.map Char.toNat)) = optNames l := by
  unfold optWords optNames
  by_cases hl : l = []
  · simp [hl]
  · rw [if_neg hl, if_neg hl]
    exact wordsOf_names (ns := some l) (by intro l' hl'; cases hl'; exact h)

theorem hash_silent {l : Str} (h : l.head? = some '#') : Silent l := by
  intro c hc
  cases l with
  | nil => cases h
  | cons a l =>
    simp only [List.head?_cons, Option.some.injEq] at h
    subst h
    rw [List.dropWhile_cons_of_neg (by decide)] at hc
    simp only [List.head?_cons, Option.some.injEq] at hc
    subst hc
    decide

/-- **C77.**  The file is read as the domains of the loops with the names and the scatterings of the
    program. -/
theorem C77_dump_read_partial {o : IslDump R} (ho : IslDumpText o) {p : Prog R} {scat : List R} (h : ProgOK o p scat) :
    ∃ text rest, progDump o p scat = some text ∧ readInput o.toIsl text = .ok (asInput p scat, rest) := by
  obtain ⟨tctx, r, P, C, I, B, D, h1, h2, h3, h4, h5, h6, -, h7, h8⟩ := front ho h.ctx h.params h.doms
    (fun l hl => h.names l (by simp only [List.mem_cons, List.not_mem_nil, or_false] at hl ⊢; tauto)) h.few
  have hne : p.loops.map Prod.fst ≠ [] := by simpa using h.some
  have hI : NamesSec (if p.loops.map Prod.fst = [] then (-1 : Int) else
      ((largest ((p.loops.map Prod.fst).map o.nout) : Nat) : Int)) I (optWords (iterNames p scat)) := by
    rw [if_neg hne, h.iters]; exact h6
  have hnm : ∀ l ∈ [p.params, iterNames p scat, p.scats], ∀ x ∈ l, GoodName x := fun l hl => (h.names l hl).1
  have hlang : (if (if p.language = .fortran then 'f' else 'c') = 'f' then Language.fortran else .c) = p.language := by
    cases p.language <;> rfl
  by_cases hs : scat = []
  · have hS : ScatSec o.toIsl (p.loops.map Prod.fst) none none (file B ++ scatText o p scat) := by
      have := ScatSec.none (o := o.toIsl) (ds := p.loops.map Prod.fst) (pre := B ++ ["# No scattering functions.".toList])
        (l := printNat 0) (rest := ['\n']) (by
          intro l hl
          rcases List.mem_append.1 hl with hl | hl
          · exact blank_silent h7 l hl
          · simp only [List.mem_singleton] at hl
            subst hl
            exact ⟨good_small (by decide) (by decide), hash_silent (by decide)⟩) (good_small (by decide) (by decide))
        (by have := number_text 0 [] (by simp) (by omega); simpa using this)
      have e : file ((B ++ ["# No scattering functions.".toList]) ++ [printNat 0]) ++ ['\n'] =
          file B ++ scatText o p scat := by
        have e' : scatText o p scat = file (["# No scattering functions.".toList] ++ [printNat 0]) ++ ['\n'] := by
          unfold scatText; rw [if_pos hs]; decide
        rw [e', List.append_assoc, file_append, List.append_assoc]
      rw [e] at this
      exact this
    obtain ⟨rest, hr⟩ := C60_read o.toIsl (progHead_sec p.language) h1 h2 h3 h4 h5 hI hS
    refine ⟨_, rest, h8, ?_⟩
    rw [hr, hlang]
    congr 2
    unfold asInput
    congr 1
    simp only [union, UD.mk.injEq, hs, if_true]
    refine ⟨?_, ?_, trivial⟩
    · funext t
      cases t with
      | param => exact h.params
      | iter => exact (hs ▸ h.iters)
      | scat => rfl
    · funext t
      cases t with
      | param => exact optWords_names (hnm _ (by simp))
      | iter => exact optWords_names (hs ▸ hnm _ (by simp))
      | scat => rfl
  · obtain ⟨s1, ss, rfl⟩ : ∃ s1 ss, scat = s1 :: ss := by
      cases scat with
      | nil => exact absurd rfl hs
      | cons a b => exact ⟨a, b, rfl⟩
    have hfit := h.fit hs
    have hlen : (p.loops.map Prod.fst).length = (s1 :: ss).length := forall₂_length hfit
    have hlen' : (s1 :: ss).length < 2 ^ 31 := by rw [← hlen]; simpa using h.few
    have hone := h.first s1 rfl
    have hscat : ScatText o.toIsl (p.loops.map Prod.fst) (s1 :: ss) (o.body s1 ++ ss.flatMap o.wr) :=
      scats_text_first ho _ _ _ _ h.doms hfit hone
    have hl : Number (printNat (s1 :: ss).length ++ (" # Scattering functions".toList ++ printNat 1))
        (p.loops.map Prod.fst).length := by
      rw [hlen]
      exact number_text _ _ (by
        intro c hc
        have : c = ' ' := by simpa using hc.symm
        subst this; decide) hlen'
    have hg : GoodLine (printNat (s1 :: ss).length ++ (" # Scattering functions".toList ++ printNat 1)) := by
      refine ⟨?_, ?_⟩
      · simp only [List.mem_append, not_or]
        exact ⟨digits_nl _, by decide, digits_nl _⟩
      · have := printNat_length (s1 :: ss).length (by omega)
        have h2 : (" # Scattering functions".toList ++ printNat 1).length = 24 := by decide
        rw [List.length_append]; omega
    have hpre : ∀ l ∈ B ++ ["# --------------------- SCATTERING --------------------".toList], GoodLine l ∧ Silent l := by
      intro l hl
      rcases List.mem_append.1 hl with hl | hl
      · exact blank_silent h7 l hl
      · simp only [List.mem_singleton] at hl
        subst hl
        exact ⟨good_small (by decide) (by decide), hash_silent (by decide)⟩
    have hN := names_sec p.scats "Scattering dimension".toList (by decide) (by decide) (h.names _ (by simp)) [[]]
      (blank_silent (by simp))
    have g1 : "# --------------------- SCATTERING --------------------\n".toList =
      "# --------------------- SCATTERING --------------------".toList ++ ['\n'] := by decide +kernel
    have g2 : "\n1 # Scattering dimension name(s)\n".toList = '\n' :: (optLine "Scattering dimension".toList ++ ['\n']) := by
      decide +kernel
    have etext : file B ++ scatText o p (s1 :: ss) =
        file ((B ++ ["# --------------------- SCATTERING --------------------".toList]) ++
          [printNat (s1 :: ss).length ++ (" # Scattering functions".toList ++ printNat 1)]) ++
        ((o.body s1 ++ ss.flatMap o.wr) ++ (file [[], optLine "Scattering dimension".toList] ++ nameWords p.scats)) := by
      unfold scatText
      rw [if_neg hs, List.flatMap_cons, ho.number s1, hone, g1, g2]
      simp only [file_append, List.append_assoc]
      simp [file]
    have hS : ScatSec o.toIsl (p.loops.map Prod.fst) (some (s1 :: ss)) (optWords p.scats) (file B ++ scatText o p (s1 :: ss)) := by
      rw [etext]
      by_cases hp : p.scats = []
      · have e : nameWords p.scats = [] := by rw [hp]; rfl
        rw [e]
        refine .some (rest := []) hpre hg hl hne hscat ?_
        rw [h.scats hs]
        have := hN.1 hp
        simpa [optWords, hp] using this
      · have e : optWords p.scats = some (wordsOf p.scats) := by unfold optWords; rw [if_neg hp]
        rw [e]
        refine .last (ns := [[], optLine "Scattering dimension".toList]) hpre hg hl hne hscat ?_
        rw [h.scats hs]
        exact hN.2 hp
    obtain ⟨rest, hr⟩ := C60_read o.toIsl (progHead_sec p.language) h1 h2 h3 h4 h5 hI hS
    refine ⟨_, rest, h8, ?_⟩
    rw [hr, hlang]
    congr 2
    unfold asInput
    congr 1
    simp only [union, UD.mk.injEq, if_neg hs]
    refine ⟨?_, ?_, trivial⟩
    · funext t
      cases t with
      | param => exact h.params
      | iter => exact h.iters
      | scat => exact h.scats hs
    · funext t
      cases t with
      | param => exact optWords_names (hnm _ (by simp))
      | iter => exact optWords_names (hnm _ (by simp))
      | scat => exact optWords_names (hnm _ (by simp))

theorem zipWith_length {α β γ : Type} (f : α → β → γ) : ∀ (l : List α) (m : List β), l.length = m.length →
    (List.zipWith f l m).length = l.length := by
  intro l m h
  rw [List.length_zipWith, h, Nat.min_self]

theorem sum_ones (l : List (R × Nat)) (hb : ∀ x ∈ l, 1 ≤ x.2) :
    l.length ≤ (l.map Prod.snd).sum ∧ (l.length = (l.map Prod.snd).sum ↔ ∀ x ∈ l, x.2 = 1) := by
  induction l with
  | nil => simp
  | cons a l ih =>
    obtain ⟨i1, i2⟩ := ih (fun x hx => hb x (by simp [hx]))
    have ha := hb a (by simp)
    simp only [List.length_cons, List.map_cons, List.sum_cons]
    refine ⟨by omega, ?_⟩
    constructor
    · intro h x hx
      rcases List.mem_cons.1 hx with rfl | hx
      · omega
      · exact i2.1 (by omega) x hx
    · intro h
      have h1 := h a (by simp)
      have h2 := i2.2 (fun x hx => h x (by simp [hx]))
      omega

/-- **C77, blocks.**  The file has one statement for each loop; so it has the statements of the program
    only if no two of them share a block. -/
theorem C77_blocks_lost {o : IslDump R} (ho : IslDumpText o) {p : Prog R} {scat : List R} (h : ProgOK o p scat)
    (hb : ∀ x ∈ p.loops, 1 ≤ x.2) :
    ∃ text inp rest, progDump o p scat = some text ∧ readInput o.toIsl text = .ok (inp, rest) ∧
      (inp.ud.domains.length = (p.loops.map Prod.snd).sum ↔ ∀ x ∈ p.loops, x.2 = 1) := by
  obtain ⟨text, rest, h1, h2⟩ := C77_dump_read_partial ho h
  refine ⟨text, _, rest, h1, h2, ?_⟩
  have : (asInput p scat).ud.domains.length = p.loops.length := by
    unfold asInput
    by_cases hs : scat = []
    · simp [hs]
    · simp only [if_neg hs]
      rw [zipWith_length _ _ _ (forall₂_length (h.fit hs))]
      simp
  rw [this]
  exact (sum_ones p.loops hb).2

/-- **C77, no statements.**  The file of a program without loops is refused: it says that there are names
    of iterators. -/
theorem C77_no_statements {o : IslDump R} (ho : IslDumpText o) {p : Prog R} {scat : List R} (h0 : p.loops = [])
    (hctx : ∃ t r, o.old p.context = some t ∧ Parses o.toIsl t r ∧ o.toParam r 0 (o.nout r) = some p.context)
    (hnp : o.np p.context = p.params.length)
    (hnames : ∀ l ∈ [p.params, iterNames p scat], (∀ x ∈ l, GoodName x) ∧
      (l.map fun x => (x.getD []).length + 1).sum ≤ 1022) :
    ∃ text, progDump o p scat = some text ∧ readInput o.toIsl text = .die := by
  obtain ⟨tctx, r, P, C, I, B, D, h1, h2, h3, h4, h5, h6, ⟨pre, h9, h10⟩, h7, h8⟩ := front ho (scat := scat) hctx hnp
    (by rw [h0]; simp) hnames (by rw [h0]; simp)
  refine ⟨_, h8, ?_⟩
  generalize file B ++ scatText o p scat = S
  obtain ⟨l, ea, hl⟩ := nextRaw_file (progHead_sec p.language)
    ((file (progHead p.language ++ [if p.language = .fortran then ['f'] else ['c']]) ++
      (tctx ++ (file P ++ (file C ++ (D ++ (file I ++ S)))))).length + 1)
    (tctx ++ (file P ++ (file C ++ (D ++ (file I ++ S))))) (by
      have := length_file (progHead p.language ++ [if p.language = .fortran then ['f'] else ['c']])
        (tctx ++ (file P ++ (file C ++ (D ++ (file I ++ S)))))
      omega)
  have ectx : readContext o.toIsl (tctx ++ (file P ++ (file C ++ (D ++ (file I ++ S))))) =
      .ok (p.context, file P ++ (file C ++ (D ++ (file I ++ S)))) := by
    unfold readContext
    rw [h1]
    simp only [Res.ofIsl, Res.bind, h2]
  obtain ⟨lc, ec, hn⟩ := nextRaw_file h4 ((file C ++ (D ++ (file I ++ S))).length + 1) (D ++ (file I ++ S)) (by
    have := length_file C (D ++ (file I ++ S)); omega)
  obtain ⟨q, hq⟩ := hn.scan
  have en1 := nameCalls_sec o.toIsl .param h3 (alloc (o.np p.context)) rfl rfl
  have hopt : ∀ X, readNames (-1) (file I ++ X) = .die := by
    intro X
    have hp1 : printNat 1 = ['1'] := by decide
    have hnum : Number (optLine "Iterator".toList) ((1 : Nat) : Int) := by
      have := number_text 1 (" # ".toList ++ "Iterator".toList ++ " name(s)".toList) (by decide) (by omega)
      rw [hp1] at this
      exact this
    have e : ∃ Y, file I ++ X = file (pre ++ [optLine "Iterator".toList]) ++ Y := by
      rw [h9, file_append, List.append_assoc]
      exact ⟨_, rfl⟩
    obtain ⟨Y, e⟩ := e
    unfold readNames
    rw [e, readOption_file (blank_silent h10) (good_small (by decide) (by decide)) hnum Y _ (by
      have := length_file (pre ++ [optLine "Iterator".toList]) Y
      simp only [List.length_append, List.length_singleton] at this ⊢; omega)]
    rfl
  unfold readInput
  rw [ea]
  dsimp only
  rw [ectx, ok_bind]
  unfold readUnion
  dsimp only
  rw [readNames_sec h3, ok_bind]
  dsimp only
  rw [en1, ok_bind, ec]
  dsimp only
  rw [hq]
  dsimp only
  rw [if_neg (by omega), Int.toNat_natCast, readDomains_ok h5, ok_bind]
  dsimp only
  rw [h0]
  rw [show maxDim o.toIsl (List.map Prod.fst ([] : List (R × Nat))) = -1 from rfl, hopt]
  rfl

/-! ## A small instance -/

/-- `k` polyhedra of the same numbers of dimensions, one behind the other. -/
def polyRd : Nat → Str → Option ((Nat × Nat × Nat) × Str)
  | 0, _ => none
  | 1, s => tinyRd s
  | k + 1, s => (tinyRd s).bind fun x => polyRd k x.2

/-- Relations of which the numbers of dimensions and of polyhedra (one more than the last number) are
    known. -/
def many : IslDump ((Nat × Nat × Nat) × Nat) where
  rd s :=
    let s0 := skip false s
    let ds := s0.takeWhile isdigit
    if ds = [] then (tinyRd s0).map fun x => ((x.1, 0), x.2)
    else (polyRd (digitsVal ds).toNat ((s0.dropWhile isdigit).dropWhile (· == '\n'))).map fun x =>
      ((x.1, (digitsVal ds).toNat - 1), x.2)
  wr r := printNat (r.2 + 1) ++ '\n' :: (List.replicate (r.2 + 1) (tiny.wr r.1)).flatten
  np r := tiny.np r.1
  nin r := tiny.nin r.1
  nout r := tiny.nout r.1
  toParam r a n := (tiny.toParam r.1 a n).map fun x => (x, r.2)
  toIn r a n := (tiny.toIn r.1 a n).map fun x => (x, r.2)
  old r := if r.2 = 0 then some (tiny.wr (0, 0, r.1.1 + r.1.2.1 + r.1.2.2)) else none
  pieces r := r.2 + 1
  body r := (List.replicate (r.2 + 1) (tiny.wr r.1)).flatten

theorem tiny_head (r : Nat × Nat × Nat) (rest : Str) : ∃ c t, tiny.wr r ++ rest = c :: t ∧ c ≠ '\n' ∧ c ≠ '#' ∧ isdigit c = false := by
  obtain ⟨a, b, c⟩ := r
  have e0 : tiny.wr (a, b, c) ++ rest =
      List.replicate a 'p' ++ (List.replicate b 'i' ++ (List.replicate c 'o' ++ ('.' :: rest))) := by
    simp [tiny]
  have hh : (tiny.wr (a, b, c) ++ rest).head? = some 'p' ∨ (tiny.wr (a, b, c) ++ rest).head? = some 'i' ∨
      (tiny.wr (a, b, c) ++ rest).head? = some 'o' ∨ (tiny.wr (a, b, c) ++ rest).head? = some '.' := by
    rw [e0, rep_head, rep_head, rep_head]
    by_cases ha : a = 0 <;> by_cases hb : b = 0 <;> by_cases hc : c = 0 <;> simp [ha, hb, hc]
  cases hq : tiny.wr (a, b, c) ++ rest with
  | nil => rw [hq] at hh; simp at hh
  | cons x t =>
    rw [hq] at hh
    simp only [List.head?_cons, Option.some.injEq] at hh
    refine ⟨x, t, rfl, ?_, ?_, ?_⟩
    · rintro rfl; revert hh; decide
    · rintro rfl; revert hh; decide
    · rcases hh with rfl | rfl | rfl | rfl <;> decide

theorem polyRd_ok (r : Nat × Nat × Nat) (rest : Str) (k : Nat) :
    polyRd (k + 1) ((List.replicate (k + 1) (tiny.wr r)).flatten ++ rest) = some (r, rest) := by
  induction k with
  | zero =>
    have h : tinyRd (tiny.wr r ++ rest) = some (r, rest) := tiny_text.print r rest
    simpa [polyRd] using h
  | succ k ih =>
    rw [polyRd, List.replicate_succ, List.flatten_cons, List.append_assoc]
    · rw [show tinyRd (tiny.wr r ++ _) = _ from tiny_text.print r _]
      exact ih
    · omega

theorem many_text : IslDumpText many where
  text :=
    { blank := by intro s; simp [many, skip]
      comment := by
        intro l s h
        have e : skip false ('#' :: l ++ '\n' :: s) = skip false s := by
          rw [List.cons_append, skip]
          simp only [show ¬ '#' = '\n' by decide, if_false, if_true]
          exact skip_true l s h
        simp only [many, e]
      print := by
        rintro ⟨r, k⟩ rest
        obtain ⟨h1, h2, h3⟩ := printNat_spec (k + 1)
        obtain ⟨c, t, e, e1, -, -⟩ := tiny_head r ((List.replicate k (tiny.wr r)).flatten ++ rest)
        have ew : many.wr (r, k) ++ rest = printNat (k + 1) ++ '\n' :: ((List.replicate (k + 1) (tiny.wr r)).flatten ++ rest) := by
          simp [many]
        have hs : skip false (many.wr (r, k) ++ rest) = many.wr (r, k) ++ rest := by
          rw [ew]
          cases hp : printNat (k + 1) with
          | nil => exact absurd hp h1
          | cons a l =>
            have ha := h2 a (by simp [hp])
            refine skip_head rfl ?_ ?_ <;> rintro rfl <;> revert ha <;> decide
        have ht : (many.wr (r, k) ++ rest).takeWhile isdigit = printNat (k + 1) := by
          rw [ew, List.takeWhile_append_of_pos h2, List.takeWhile_cons_of_neg (by decide)]
          simp
        have hd : (many.wr (r, k) ++ rest).dropWhile isdigit = '\n' :: ((List.replicate (k + 1) (tiny.wr r)).flatten ++ rest) := by
          rw [ew, List.dropWhile_append_of_pos h2, List.dropWhile_cons_of_neg (by decide)]
        have hn : ('\n' :: ((List.replicate (k + 1) (tiny.wr r)).flatten ++ rest)).dropWhile (· == '\n') =
            (List.replicate (k + 1) (tiny.wr r)).flatten ++ rest := by
          rw [List.dropWhile_cons_of_pos (by decide), List.replicate_succ, List.flatten_cons, List.append_assoc, e,
            List.dropWhile_cons_of_neg (by simpa using e1)]
        show (let s0 := skip false (many.wr (r, k) ++ rest)
          let ds := s0.takeWhile isdigit
          if ds = [] then (tinyRd s0).map fun x => ((x.1, 0), x.2)
          else (polyRd (digitsVal ds).toNat ((s0.dropWhile isdigit).dropWhile (· == '\n'))).map fun x =>
            ((x.1, (digitsVal ds).toNat - 1), x.2)) = _
        dsimp only
        rw [hs, ht, hd, hn, if_neg h1, h3, Int.toNat_natCast, polyRd_ok]
        simp
      noMove := by rintro ⟨⟨a, b, c⟩, k⟩; simp [many, tiny] }
  number := fun _ => rfl
  one := by
    rintro ⟨r, k⟩ h rest
    have hk : k = 0 := by simpa [many] using h
    subst hk
    obtain ⟨c, t, e, e1, e2, e3⟩ := tiny_head r rest
    have eb : many.body (r, 0) ++ rest = tiny.wr r ++ rest := by simp [many]
    have hs : skip false (tiny.wr r ++ rest) = tiny.wr r ++ rest := skip_head e e1 e2
    rw [eb]
    show (let s0 := skip false (tiny.wr r ++ rest)
      let ds := s0.takeWhile isdigit
      if ds = [] then (tinyRd s0).map fun x => ((x.1, 0), x.2)
      else (polyRd (digitsVal ds).toNat ((s0.dropWhile isdigit).dropWhile (· == '\n'))).map fun x =>
        ((x.1, (digitsVal ds).toNat - 1), x.2)) = _
    dsimp only
    rw [hs, if_pos (by rw [e, List.takeWhile_cons_of_neg (by simp [e3])]),
      show tinyRd (tiny.wr r ++ rest) = _ from tiny_text.print r rest]
    rfl

/-- A program with a parameter, two loops, the second a union of two polyhedra with a block of `b`
    statements. -/
def exProg (b : Nat) : Prog ((Nat × Nat × Nat) × Nat) where
  language := .fortran
  context := ((1, 0, 0), 0)
  params := [some [78]]
  scats := [some [105], some [106]]
  iters := [some [105, 105], some [106]]
  loops := [(((1, 0, 2), 0), 1), (((1, 0, 1), 1), b)]

/-- Scatterings for the program; the first has `k + 1` polyhedra. -/
def exScat (k : Nat) : List ((Nat × Nat × Nat) × Nat) := [((1, 2, 2), k), ((1, 1, 2), 3)]

theorem good_ii : GoodName (some [105, 105]) := ⟨['i', 'i'], rfl, by decide, by decide, by decide, by decide⟩

theorem exProg_ctx (b : Nat) : ∃ t r, many.old (exProg b).context = some t ∧ Parses many.toIsl t r ∧
    many.toParam r 0 (many.nout r) = some (exProg b).context := by
  refine ⟨tiny.wr (0, 0, 1), ((0, 0, 1), 0), rfl, ?_, rfl⟩
  have := many_text.one ((0, 0, 1), 0) rfl
  intro rest
  have h := this rest
  simpa [many] using h

theorem exProg_ok (b : Nat) : ProgOK many (exProg b) (exScat 0) where
  ctx := exProg_ctx b
  params := rfl
  doms := by
    intro d hd
    simp only [exProg, List.map_cons, List.map_nil, List.mem_cons, List.not_mem_nil, or_false] at hd
    rcases hd with rfl | rfl <;> rfl
  iters := rfl
  scats := fun _ => rfl
  some := by simp [exProg]
  fit := fun _ => .cons ⟨rfl, rfl⟩ (.cons ⟨rfl, rfl⟩ .nil)
  first := by
    intro s hs
    simp only [exScat, List.head?_cons, Option.some.injEq] at hs
    subst hs; rfl
  names := by
    intro l hl
    have hi : iterNames (exProg b) (exScat 0) = [some [105, 105], some [106]] := rfl
    rw [hi] at hl
    simp only [exProg, List.mem_cons, List.not_mem_nil, or_false] at hl
    rcases hl with rfl | rfl | rfl <;> refine ⟨?_, by decide⟩ <;> intro x hx <;>
      simp only [List.mem_cons, List.not_mem_nil, or_false] at hx
    · subst hx; exact good_one 78 (by simp)
    · rcases hx with rfl | rfl
      · exact good_ii
      · exact good_one 106 (by simp)
    · rcases hx with rfl | rfl
      · exact good_one 105 (by simp)
      · exact good_one 106 (by simp)
  few := by simp [exProg]

example : ∃ text rest, progDump many (exProg 1) (exScat 0) = some text ∧
    readInput many.toIsl text = .ok (asInput (exProg 1) (exScat 0), rest) :=
  C77_dump_read_partial many_text (exProg_ok 1)

/-- With a block of two statements there are three statements, of which two are kept. -/
example : ∃ text inp rest, progDump many (exProg 2) (exScat 0) = some text ∧
    readInput many.toIsl text = .ok (inp, rest) ∧ inp.ud.domains.length ≠ 3 := by
  obtain ⟨text, inp, rest, h1, h2, h3⟩ := C77_blocks_lost many_text (exProg_ok 2) (by
    intro x hx
    simp only [exProg, List.mem_cons, List.not_mem_nil, or_false] at hx
    rcases hx with rfl | rfl <;> simp)
  refine ⟨text, inp, rest, h1, h2, fun h => ?_⟩
  have := h3.1 (by rw [h]; rfl) (((1, 0, 1), 1), 2) (by simp [exProg])
  exact absurd this (by simp)

/-- A program without loops. -/
example : ∃ text, progDump many { exProg 1 with loops := [] } [] = some text ∧ readInput many.toIsl text = .die :=
  C77_no_statements many_text rfl (exProg_ctx 1) rfl (by
    intro l hl
    have hi : iterNames { exProg 1 with loops := [] } [] = [some [105], some [106], some [105, 105], some [106]] := rfl
    rw [hi] at hl
    simp only [exProg, List.mem_cons, List.not_mem_nil, or_false] at hl
    rcases hl with rfl | rfl <;> refine ⟨?_, by decide⟩ <;> intro x hx <;>
      simp only [List.mem_cons, List.not_mem_nil, or_false] at hx
    · subst hx; exact good_one 78 (by simp)
    · rcases hx with rfl | rfl | rfl | rfl
      · exact good_one 105 (by simp)
      · exact good_one 106 (by simp)
      · exact good_ii
      · exact good_one 106 (by simp))

/-! ## Unions as scatterings -/

/-- The scatterings of the statements read from the file of a program. -/
def readScats (p : Prog ((Nat × Nat × Nat) × Nat)) (scat : List ((Nat × Nat × Nat) × Nat)) :
    Option (List (Option ((Nat × Nat × Nat) × Nat))) :=
  (progDump many p scat).bind fun t => match readInput many.toIsl t with
    | .ok (i, _) => some (i.ud.domains.map Named.scat)
    | _ => none

/-- **C77, unions.**  The number of polyhedra of the first scattering is printed at the end of a comment, so
    of a scattering with two polyhedra one is kept, without a message; with two statements the rest of the
    scattering is taken for the next one and the file is not read.  A later scattering may have several
    polyhedra. -/
theorem C77_union_scattering :
    readScats { exProg 1 with loops := [(((1, 0, 2), 0), 1)] } [((1, 2, 2), 1)] = some [some ((1, 2, 2), 0)] ∧
    readScats { exProg 1 with loops := [(((1, 0, 2), 0), 1), (((1, 0, 2), 0), 1)] } [((1, 2, 2), 1), ((1, 2, 2), 0)] = none ∧
    readScats { exProg 1 with loops := [(((1, 0, 2), 0), 1), (((1, 0, 2), 0), 1)] } [((1, 2, 2), 0), ((1, 2, 2), 4)] =
      some [some ((1, 2, 2), 0), some ((1, 2, 2), 4)] := by
  refine ⟨?_, ?_, ?_⟩ <;> decide +kernel

end Verif.Props.ProgDump
