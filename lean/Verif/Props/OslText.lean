import Verif.Props.Annotate
import Verif.Props.ProgBrackets

/-!
# C67, C36: declarations and brackets of programs from OpenScop specifications
-/

namespace Verif.Props.OslText
open Verif.PText Verif.ProgText Verif.Annotate Verif.PPrint Verif.PLex Verif.Props.PPrint Verif.Props.PText
open Verif.Props.ProgText Verif.Props.ProgBrackets

/-- The variables declared by a line with any indentation. -/
def lineDecls (line : List Char) : List (List Char) := declsOf (' ' :: ' ' :: line.dropWhile (· == ' '))

/-- The variables declared by a text with any indentation. -/
def textDecls (cs : List Char) : List (List Char) := (linesOf [] cs).flatMap lineDecls

/-- Complete lines that declare the given variables. -/
def Declares (m : List Char) (l : List (List Char)) : Prop := ∀ rest, textDecls (m ++ rest) = l ++ textDecls rest

theorem Declares.append {a b : List Char} {l k : List (List Char)} (ha : Declares a l) (hb : Declares b k) :
    Declares (a ++ b) (l ++ k) := by
  intro rest
  rw [List.append_assoc, ha, hb, List.append_assoc]

theorem Declares.nil : Declares [] [] := fun _ => rfl

theorem Declares.line {a : List Char} (h : '\n' ∉ a) {l : List (List Char)} (hl : lineDecls a = l) :
    Declares (a ++ ['\n']) l := by
  intro rest
  unfold textDecls
  rw [List.append_assoc, List.singleton_append, linesOf_line h, List.nil_append, List.flatMap_cons, hl]

theorem drop_indC (n : Nat) (a : List Char) : (indC n ++ a).dropWhile (· == ' ') = a.dropWhile (· == ' ') :=
  Parallel.drop_ind n a

theorem indC_nl (n : Nat) : '\n' ∉ indC n := by
  unfold indC
  intro h
  exact absurd (List.eq_of_mem_replicate h) (by decide +kernel)

theorem joined_nl {ns : List String} (h : ∀ n ∈ ns, ident n = true) : '\n' ∉ joined ", " ns := by
  have hn : ∀ n ∈ ns, '\n' ∉ n.toList := fun n hn => not_mem_word (ident_word (h n hn)).1 (by decide +kernel)
  cases ns with
  | nil => simp [joined]
  | cons n ns =>
    unfold joined following
    rw [List.mem_append, List.mem_flatMap]
    rintro (h1 | ⟨m, hm, h1⟩)
    · exact hn n (by simp) h1
    · rw [List.mem_append] at h1
      rcases h1 with h1 | h1
      · exact absurd h1 (by decide +kernel)
      · exact hn m (by simp [hm]) h1

/-- A line of declarations. -/
theorem declsAt_declares (n : Nat) {ns : List String} (hne : ns ≠ []) (h : ∀ m ∈ ns, ident m = true) :
    Declares (declsAt n ns) (ns.map String.toList) := by
  have e0 : declarations ns = (' ' :: ' ' :: (lit "int " ++ (joined ", " ns ++ [';']))) ++ ['\n'] := by
    unfold declarations
    have : lit ";\n" = [';', '\n'] := by decide +kernel
    rw [this]
    have : lit "  int " = ' ' :: ' ' :: lit "int " := by decide +kernel
    rw [this]
    simp
  have hnl : '\n' ∉ lit "int " ++ (joined ", " ns ++ [';']) := by
    simp only [List.mem_append, not_or]
    exact ⟨by decide +kernel, joined_nl h, by decide +kernel⟩
  have hl : declsOf (' ' :: ' ' :: (lit "int " ++ (joined ", " ns ++ [';']))) = ns.map String.toList := by
    have hd := declarations_decls hne h []
    rw [e0, List.append_nil] at hd
    unfold ProgText.declared at hd
    have : linesOf [] ((' ' :: ' ' :: (lit "int " ++ (joined ", " ns ++ [';']))) ++ ['\n']) =
        (' ' :: ' ' :: (lit "int " ++ (joined ", " ns ++ [';']))) :: linesOf [] [] := by
      rw [linesOf_line (by simpa using hnl), List.nil_append]
    rw [this, List.flatMap_cons] at hd
    exact List.append_cancel_right hd
  have e1 : declsAt n ns = (indC n ++ (lit "int " ++ (joined ", " ns ++ [';']))) ++ ['\n'] := by
    unfold declsAt
    have : lit ";\n" = [';', '\n'] := by decide +kernel
    rw [this]
    simp
  rw [e1]
  refine Declares.line ?_ ?_
  · rw [List.mem_append, not_or]
    exact ⟨indC_nl n, hnl⟩
  · unfold lineDecls
    rw [drop_indC]
    have : (lit "int " ++ (joined ", " ns ++ [';'])).dropWhile (· == ' ') = lit "int " ++ (joined ", " ns ++ [';']) := by
      have : lit "int " = 'i' :: lit "nt " := by decide +kernel
      rw [this, List.cons_append, List.dropWhile_cons, if_neg (by decide +kernel)]
    rw [this, hl]

/-- A comment declares nothing. -/
theorem comment_declares (n : Nat) {s : String} {w : List Char} (hs : lit s = '/' :: w ++ ['\n']) (hw : '\n' ∉ w) :
    Declares (indC n ++ lit s) [] := by
  rw [hs, ← List.append_assoc]
  refine Declares.line ?_ ?_
  · rw [List.mem_append, List.mem_cons]
    simp only [not_or]
    exact ⟨indC_nl n, by decide +kernel, hw⟩
  · unfold lineDecls
    rw [drop_indC, List.dropWhile_cons, if_neg (by decide +kernel)]
    unfold declsOf
    rw [if_neg (by simp [List.isPrefixOf]), if_neg (by simp [List.isPrefixOf])]

/-- **C67, text of the declarations.**  The lines printed before the code declare the scattering dimensions that
    are not iterators, the iterators (without coordinates), and the variables of the bounds of loops that
    annotations ask to be parallel or vectorised; nothing else, with any indentation. -/
theorem C67_declarations (n : Nat) (coords : Bool) (p : Prog) (hp : Usable p) (anns : List Ann) :
    Declares (declsOsl n coords p anns)
      ((p.scat.filter (fun x => !p.iters.contains x)).map String.toList ++
        ((if coords then [] else p.iters.map String.toList) ++
          ((if anns.any (·.omp) then ["lbp".toList, "ubp".toList] else []) ++
            (if anns.any (·.vec) then ["lbv".toList, "ubv".toList] else [])))) := by
  unfold declsOsl groups
  simp only [List.flatMap_append]
  have hnl : Declares ['\n'] [] := Declares.line (a := []) (by simp) (by decide +kernel)
  have := Declares.append (a := ?_) (l := ?_) ?_ hnl
  · rw [List.append_nil] at this
    exact this
  refine Declares.append ?_ (Declares.append ?_ (Declares.append ?_ ?_))
  · split
    · rename_i h
      have h : p.scat.filter (fun x => !p.iters.contains x) = [] := List.isEmpty_iff.1 h
      rw [h]
      exact Declares.nil
    · rename_i h
      simp only [List.flatMap_cons, List.flatMap_nil, List.append_nil]
      exact Declares.append (l := []) (comment_declares n (w := "* Scattering iterators. */".toList) (by decide +kernel) (by decide +kernel))
        (declsAt_declares n (fun he => h (List.isEmpty_iff.2 he)) fun m hm => hp.scat m (ownScat_mem hm))
  · cases coords with
    | true => exact Declares.nil
    | false =>
      simp only [Bool.false_or, Bool.false_eq_true, if_false]
      split
      · rename_i h
        rw [List.isEmpty_iff.1 h]
        exact Declares.nil
      · rename_i h
        simp only [List.flatMap_cons, List.flatMap_nil, List.append_nil]
        exact Declares.append (l := []) (comment_declares n (w := "* Original iterators. */".toList) (by decide +kernel) (by decide +kernel))
          (declsAt_declares n (fun he => h (List.isEmpty_iff.2 he)) hp.iters)
  · unfold flags
    split
    · simp only [List.flatMap_cons, List.flatMap_nil, List.append_nil]
      exact declsAt_declares n (ns := ["lbp", "ubp"]) (by simp) (by decide +kernel)
    · exact Declares.nil
  · unfold flags
    split
    · simp only [List.flatMap_cons, List.flatMap_nil, List.append_nil]
      exact declsAt_declares n (ns := ["lbv", "ubv"]) (by simp) (by decide +kernel)
    · exact Declares.nil

example : textDecls (declsOsl 4 false ⟨["c1", "i"], ["i"], [], []⟩ [{ iter := none, stmts := none, omp := true }]) =
    ["c1".toList, "i".toList, "lbp".toList, "ubp".toList] := by decide +kernel

/-! ## Brackets -/

/-- The texts of a region have no brackets. -/
def regionPlain (r : Region) : Bool :=
  (r.pre ++ r.prelude_ ++ r.postlude ++ r.suffix).all fun x => x.text.toList.all plain

theorem regionText_net {t : List RLine} (h : ∀ x ∈ t, x.text.toList.all plain = true) (a : List Char) :
    Net a (regionText t) a := by
  unfold regionText
  refine Net.flatMap fun x hx => Net.same ?_ ?_
  · split
    · exact Net.of_bal (by rw [lit_eq]; exact Bal.plain (by decide +kernel)) a
    · exact Net.nil a
  · split
    · exact Net.same (Net.of_bal (Bal.plain (h x hx)) a) (Net.of_bal (Bal.plain (by decide +kernel)) a)
    · exact Net.nil a

theorem ind_net (n : Nat) (a : List Char) : Net a (indC n) a := by
  refine Net.of_bal (Bal.plain (List.all_eq_true.2 fun c hc => ?_)) a
  unfold indC at hc
  rw [List.eq_of_mem_replicate hc]
  decide

theorem declsOsl_net (n : Nat) (coords : Bool) {p : Prog} (hp : Usable p) (anns : List Ann) (a : List Char) :
    Net a (declsOsl n coords p anns) a := by
  have hd : ∀ ns : List String, (∀ m ∈ ns, ident m = true) → Net a (declsAt n ns) a := fun ns h =>
    Net.same (ind_net n a) (Net.same (Net.of_bal (by rw [lit_eq]; exact Bal.plain (by decide +kernel)) a)
      (Net.same (joined_net (by decide +kernel) h a) (Net.of_bal (by rw [lit_eq]; exact Bal.plain (by decide +kernel)) a)))
  unfold declsOsl
  refine Net.same (Net.flatMap fun g hg => ?_) (Net.of_bal (Bal.plain (by decide +kernel)) a)
  have hg' : (g.1 = none ∨ g.1 = some "/* Scattering iterators. */\n" ∨ g.1 = some "/* Original iterators. */\n") ∧
      ∀ m ∈ g.2, ident m = true := by
    unfold groups at hg
    simp only [List.mem_append] at hg
    rcases hg with hg | hg | hg | hg
    · split at hg
      · simp at hg
      · rw [List.mem_singleton] at hg
        subst hg
        exact ⟨Or.inr (Or.inl rfl), fun m hm => hp.scat m (ownScat_mem hm)⟩
    · split at hg
      · simp at hg
      · rw [List.mem_singleton] at hg
        subst hg
        exact ⟨Or.inr (Or.inr rfl), hp.iters⟩
    · split at hg
      · rw [List.mem_singleton] at hg
        subst hg
        exact ⟨Or.inl rfl, by decide +kernel⟩
      · simp at hg
    · split at hg
      · rw [List.mem_singleton] at hg
        subst hg
        exact ⟨Or.inl rfl, by decide +kernel⟩
      · simp at hg
  unfold groupText
  refine Net.same ?_ (hd _ hg'.2)
  rcases hg'.1 with h | h | h <;> rw [h]
  · exact Net.nil a
  · exact Net.same (ind_net n a) (Net.of_bal (by rw [lit_eq]; exact Bal.plain (by decide +kernel)) a)
  · exact Net.same (ind_net n a) (Net.of_bal (by rw [lit_eq]; exact Bal.plain (by decide +kernel)) a)

/-- The brackets of what replaces a SCoP are closed in the right order, whatever region, declarations and
annotations there are, in both languages. -/
theorem C36_scop (s : Scop) (f : Cfg) (hf : Plain f) (p : Prog) (hp : Usable p) (ss : List PStmt)
    (h : plainPs ss = true) (hr : ∀ r ∈ s.regions, regionPlain r = true) (t : List Char)
    (ht : s.code f p ss = some t) : closes [] t = true := by
  unfold Scop.code at ht
  rw [Option.map_eq_some_iff] at ht
  obtain ⟨b, hb, rfl⟩ := ht
  have hbal : Bal b := by
    unfold pprint at hb
    split at hb
    · exact absurd hb (by simp)
    · exact (stmtsC_bal hf ss _ b h hb).1
  suffices hm : ∃ a, Net [] (regionOpen (globalRegion s.regions)) a ∧ Net a (regionClose (globalRegion s.regions)) [] by
    obtain ⟨a, h1, h2⟩ := hm
    have := (h1.append ((declsOsl_net s.indent s.coords.isSome hp s.anns a).append ((Net.of_bal hbal a).append h2))) [] []
    simp only [List.append_nil, List.nil_append] at this
    exact this
  cases hg : globalRegion s.regions with
  | none => exact ⟨[], Net.nil _, Net.nil _⟩
  | some r =>
    have hm : r ∈ s.regions := List.mem_of_find?_eq_some hg
    have hp := hr r hm
    unfold regionPlain at hp
    rw [List.all_eq_true] at hp
    refine ⟨['{'], ?_, ?_⟩
    · exact Net.same (regionText_net (fun x hx => hp x (by simp [hx])) _)
        (Net.append (b := ['{']) (Net.lit (by decide +kernel)) (regionText_net (fun x hx => hp x (by simp [hx])) _))
    · exact Net.same (regionText_net (fun x hx => hp x (by simp [hx])) _)
        (Net.append (b := []) (Net.lit (by decide +kernel)) (regionText_net (fun x hx => hp x (by simp [hx])) _))

/-- A specification with a region. -/
def exScop : Scop := ⟨none, none, [⟨true, [⟨true, true, "omp parallel"⟩], [], [], []⟩], [{ iter := none, stmts := none, omp := true }]⟩

example : ∃ t, exScop.code exC exP exS = some t ∧ closes [] t = true := by
  have h : (exScop.code exC exP exS).isSome = true := by decide +kernel
  obtain ⟨t, ht⟩ := Option.isSome_iff_exists.1 h
  exact ⟨t, ht, C36_scop exScop exC exC_plain exP exP_usable exS (by decide +kernel) (by decide +kernel) t ht⟩

end Verif.Props.OslText
