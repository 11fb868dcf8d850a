import Verif.Props.ProgText

/-!
# C36: brackets of whole programs
-/

namespace Verif.Props.ProgBrackets
open Verif.CText Verif.PLex Verif.PText Verif.PPrint Verif.ProgText Verif.Props.PPrint Verif.Props.PText Verif.Props.ProgText

/-- Reading the characters with the brackets `a` open leaves the brackets `b` open. -/
def Net (a : List Char) (cs : List Char) (b : List Char) : Prop :=
  ∀ st rest, closes (a ++ st) (cs ++ rest) = closes (b ++ st) rest

theorem Net.append {a b c x y : List Char} (h1 : Net a x b) (h2 : Net b y c) : Net a (x ++ y) c := by
  intro st rest
  rw [List.append_assoc, h1, h2]

theorem Net.same {a c x y : List Char} (h1 : Net a x a) (h2 : Net a y c) : Net a (x ++ y) c := h1.append h2

theorem Net.of_bal {x : List Char} (h : Bal x) (a : List Char) : Net a x a := fun st rest => h _ _

theorem Net.bal {x : List Char} (h : Net [] x []) : Bal x := fun st rest => h st rest

/-- The open brackets after some characters. -/
def opened : List Char → List Char → Option (List Char)
  | st, [] => some st
  | st, c :: cs =>
    if c = '(' ∨ c = '{' then opened (c :: st) cs
    else if c = ')' then
      match st with
      | [] => none
      | o :: st => if o = '(' then opened st cs else none
    else if c = '}' then
      match st with
      | [] => none
      | o :: st => if o = '{' then opened st cs else none
    else opened st cs

theorem Net.opened : ∀ {cs a b : List Char}, opened a cs = some b → Net a cs b
  | [], a, b, h => by
    simp only [ProgBrackets.opened, Option.some.injEq] at h
    subst h
    exact fun st rest => rfl
  | c :: cs, a, b, h => by
    intro st rest
    rw [ProgBrackets.opened.eq_def] at h
    dsimp only at h
    rw [List.cons_append, closes.eq_def]
    dsimp only
    split at h
    · rename_i hc
      rw [if_pos hc]
      exact Net.opened (a := c :: a) h st rest
    · rename_i hc
      rw [if_neg hc]
      split at h
      · rename_i hc
        rw [if_pos hc]
        match a, h with
        | o :: a, h =>
          dsimp only at h
          rw [List.cons_append]
          dsimp only
          split at h
          · rename_i ho
            rw [if_pos ho]
            exact Net.opened h st rest
          · cases h
      · rename_i hc
        rw [if_neg hc]
        split at h
        · rename_i hc
          rw [if_pos hc]
          match a, h with
          | o :: a, h =>
            dsimp only at h
            rw [List.cons_append]
            dsimp only
            split at h
            · rename_i ho
              rw [if_pos ho]
              exact Net.opened h st rest
            · cases h
        · rename_i hc
          rw [if_neg hc]
          exact Net.opened h st rest

theorem Net.lit {s : String} {a b : List Char} (h : ProgBrackets.opened a s.toList = some b) : Net a (lit s) b := by
  rw [lit_eq]
  exact Net.opened h

theorem Net.flatMap {α : Type} {f : α → List Char} {a : List Char} : ∀ {l : List α}, (∀ x ∈ l, Net a (f x) a) →
    Net a (l.flatMap f) a
  | [], _ => fun st rest => rfl
  | x :: l, h => by
    rw [List.flatMap_cons]
    exact (h x (by simp)).append (Net.flatMap fun y hy => h y (by simp [hy]))

theorem plain_word {c : Char} (h : wordChar c = true) : plain c = true := by
  unfold plain
  simp only [Bool.not_eq_true', Bool.or_eq_false_iff, beq_eq_false_iff_ne]
  refine ⟨⟨⟨?_, ?_⟩, ?_⟩, ?_⟩ <;> rintro rfl <;> exact absurd h (by decide)

theorem Net.word {w : List Char} (h : w.all wordChar = true) (a : List Char) : Net a w a :=
  Net.of_bal (Bal.plain (List.all_eq_true.2 fun c hc => plain_word (List.all_eq_true.1 h c hc))) a

theorem Net.name {n : String} (h : ident n = true) (a : List Char) : Net a n.toList a := Net.word (ident_word h).1 a

theorem Net.int (v : Int) (a : List Char) : Net a (intC v) a :=
  Net.of_bal (Bal.plain (List.all_eq_true.2 fun c hc => by
    rcases intC_mem hc with rfl | h
    · decide
    · exact plain_word h)) a

theorem Net.nil (a : List Char) : Net a [] a := fun st rest => rfl

theorem following_net {sep : String} (hs : sep.toList.all plain = true) {ns : List String} (h : ∀ n ∈ ns, ident n = true)
    (a : List Char) : Net a (following sep ns) a :=
  Net.flatMap fun n hn => (Net.of_bal (by rw [lit_eq]; exact Bal.plain hs) a).append (Net.name (h n hn) a)

theorem joined_net {sep : String} (hs : sep.toList.all plain = true) {ns : List String} (h : ∀ n ∈ ns, ident n = true)
    (a : List Char) : Net a (joined sep ns) a := by
  cases ns with
  | nil => exact Net.nil a
  | cons n ns => exact (Net.name (h n (by simp)) a).append (following_net hs (fun m hm => h m (by simp [hm])) a)

theorem declarations_net {ns : List String} (h : ∀ n ∈ ns, ident n = true) (a : List Char) : Net a (declarations ns) a :=
  Net.same (Net.of_bal (by rw [lit_eq]; exact Bal.plain (by decide)) a)
    (Net.same (joined_net (by decide) h a) (Net.of_bal (by rw [lit_eq]; exact Bal.plain (by decide)) a))

theorem iteratorDecls_net {p : Prog} (hp : Usable p) (a : List Char) : Net a (iteratorDecls p) a := by
  unfold iteratorDecls
  refine Net.same ?_ ?_
  · split
    · exact Net.nil a
    · exact Net.same (Net.of_bal (by rw [lit_eq]; exact Bal.plain (by decide)) a)
        (declarations_net (fun n hn => hp.scat n (List.mem_filter.1 hn).1) a)
  · split
    · exact Net.nil a
    · exact Net.same (Net.of_bal (by rw [lit_eq]; exact Bal.plain (by decide)) a) (declarations_net hp.iters a)

theorem macroHead_net {p : Prog} (hp : Usable p) (s : Nat × Nat) : Net [] (macroHead p s) [] := by
  unfold macroHead
  refine Net.same (Net.lit (by decide)) (Net.same (Net.word (defName_word _) _) ?_)
  have h := joined_net (sep := ",") (by decide) (ns := p.iters.take s.2)
    (fun n hn => hp.iters n (List.mem_of_mem_take hn)) ['(']
  exact Net.append (x := ['(']) (b := ['(']) (Net.opened (by decide)) (Net.same h (Net.opened (by decide)))

theorem callableMacro_net {p : Prog} (hp : Usable p) (s : Nat × Nat) : Net [] (callableMacro p s) [] := by
  unfold callableMacro
  refine Net.same (macroHead_net hp s) (Net.append (b := ['(', '{']) (Net.lit (by decide)) (Net.same (Net.int _ _)
    (Net.append (b := ['{']) (Net.lit (by decide)) (Net.same (Net.flatMap fun n hn => ?_) (Net.lit (by decide))))))
  exact Net.append (b := ['(', '{']) (Net.lit (by decide)) (Net.append
    (Net.name (hp.iters n (List.mem_of_mem_take hn)) _) (Net.lit (by decide)))

theorem compilableMacro_net {p : Prog} (hp : Usable p) (s : Nat × Nat) : Net [] (compilableMacro p s) [] := by
  unfold compilableMacro
  refine Net.same (macroHead_net hp s) (Net.append (b := ['{']) (Net.lit (by decide)) (Net.same ?_ (Net.lit (by decide))))
  have hi : ∀ n ∈ p.iters.take s.2, ident n = true := fun n hn => hp.iters n (List.mem_of_mem_take hn)
  revert hi
  generalize p.iters.take s.2 = l
  intro hi
  cases l with
  | nil => exact Net.nil _
  | cons n ns =>
    exact Net.append (b := ['(', '{']) (Net.lit (by decide)) (Net.same (Net.word (defName_word _) _)
      (Net.same (Net.lit (by decide)) (Net.same (Net.flatMap fun _ _ => Net.lit (by decide))
        (Net.same (Net.lit (by decide)) (Net.same (Net.name (hi n (by simp)) _)
          (Net.same (following_net (by decide) (fun m hm => hi m (by simp [hm])) _) (Net.lit (by decide))))))))

theorem macros_net (a : List Char) : Net a macros a := by
  refine Net.of_bal (Net.bal (Net.opened ?_)) a
  decide +kernel

/-- Where the code of a callable program starts, one brace is open. -/
theorem callable_net {p : Prog} (hp : Usable p) : Net [] (callablePreamble p) ['{'] := by
  unfold callablePreamble
  refine Net.same (Net.lit (by decide +kernel)) (Net.same (macros_net _) (Net.same (Net.lit (by decide +kernel))
    (Net.same (Net.flatMap fun s _ => callableMacro_net hp s) (Net.append (b := ['(']) (Net.lit (by decide))
      (Net.append (b := ['(']) ?_ (Net.append (b := ['{']) (Net.lit (by decide)) (iteratorDecls_net hp _)))))))
  have hpar := hp.params
  revert hpar
  generalize p.params = l
  intro hpar
  cases l with
  | nil => exact Net.nil _
  | cons n ns =>
    exact Net.same (Net.lit (by decide)) (Net.same (Net.name (hpar n (by simp)) _)
      (following_net (by decide) (fun m hm => hpar m (by simp [hm])) _))

theorem parDecls_net {p : Prog} (hp : Usable p) (a : List Char) : Net a (parDecls p) a := by
  have hpar := hp.params
  have ofl : ∀ {s : String}, s.toList.all plain = true → Net a (lit s) a := fun h =>
    Net.of_bal (by rw [lit_eq]; exact Bal.plain h) a
  unfold parDecls
  revert hpar
  generalize p.params = l
  intro hpar
  cases l with
  | nil => exact Net.nil _
  | cons n ns =>
    refine Net.same (ofl (by decide)) (Net.same (Net.name (hpar n (by simp)) _) (Net.same (ofl (by decide))
      (Net.same (Net.flatMap fun m hm => ?_) (ofl (by decide)))))
    have hmem : m.1 ∈ ns := (List.mem_zipIdx hm).2.2 ▸ List.getElem_mem _
    exact Net.same (ofl (by decide)) (Net.same (Net.name (hpar m.1 (by simp [hmem])) _)
      (Net.same (ofl (by decide)) (Net.int _ _)))

/-- Where the code of a compilable program starts, one brace is open. -/
theorem compilable_net {p : Prog} (hp : Usable p) (v : Int) : Net [] (compilablePreamble p v) ['{'] := by
  unfold compilablePreamble
  refine Net.same (Net.lit (by decide +kernel)) (Net.same (Net.lit (by decide +kernel))
    (Net.same (Net.lit (by decide +kernel)) (Net.same (Net.flatMap fun i _ => ?_) (Net.same (macros_net _)
      (Net.same (Net.lit (by decide +kernel)) (Net.same (Net.flatMap fun s _ => compilableMacro_net hp s)
        (Net.append (b := ['{']) (Net.lit (by decide +kernel)) (Net.same (iteratorDecls_net hp _)
          (Net.same (parDecls_net hp _) (Net.lit (by decide +kernel)))))))))))
  exact Net.same (Net.lit (by decide)) (Net.same (Net.int _ _) (Net.same (x := [' ']) (Net.opened (by decide))
    (Net.same (Net.int _ _) (Net.opened (by decide)))))

/-- The brackets of the text of a whole program are closed in the right order, in both languages and with or
without `-compilable` and `-callable`; in particular the function around the code ends behind the code. -/
theorem C36_program (f : Cfg) (hf : Plain f) (v : Int) (fr : List Char) (hfr : fr.all plain = true) (p : Prog)
    (hp : Usable p) (ss : List PStmt) (h : plainPs ss = true) (t : List Char)
    (ht : programText f v fr p ss = some t) : closes [] t = true := by
  unfold programText at ht
  dsimp only at ht
  rw [Option.map_eq_some_iff] at ht
  obtain ⟨b, hb, rfl⟩ := ht
  have hbal : Bal b := by
    unfold pprint at hb
    split at hb
    · exact absurd hb (by simp)
    · exact (stmtsC_bal hf ss _ b h hb).1
  have hcom : Net [] (comment f.lang fr) [] := by
    unfold comment
    split
    · exact Net.same (Net.lit (by decide)) (Net.same (Net.of_bal (Bal.plain hfr) _) (Net.opened (by decide)))
    · exact Net.same (Net.lit (by decide)) (Net.same (Net.of_bal (Bal.plain hfr) _) (Net.lit (by decide)))
  suffices hm : ∃ a, Net [] (preamble f.lang ⟨v, f.callable⟩ p) a ∧ Net a (postamble f.lang ⟨v, f.callable⟩) [] by
    obtain ⟨a, h1, h2⟩ := hm
    have := (hcom.append (h1.append ((Net.of_bal hbal a).append h2))) [] []
    simp only [List.append_nil, List.nil_append] at this
    exact this
  unfold preamble postamble
  cases f.lang with
  | fortran => exact ⟨[], Net.nil _, Net.nil _⟩
  | c =>
    dsimp only
    by_cases hv : v ≠ 0
    · rw [if_pos hv, if_pos hv]
      exact ⟨['{'], compilable_net hp v, Net.lit (by decide +kernel)⟩
    · rw [if_neg hv, if_neg hv]
      cases f.callable with
      | false => exact ⟨[], Net.nil _, Net.nil _⟩
      | true => exact ⟨['{'], callable_net hp, Net.lit (by decide)⟩

/-- A configuration printing callable C functions without names and bodies of statements. -/
def exC : Cfg := ⟨.c, true, fun _ => none, fun _ => none⟩

/-- A loop with a call of a statement. -/
def exS : List PStmt :=
  [.root, .for_ "i" (some (.cst 0)) (some (.name "N")) 1 {} [.user 1 [(none, .name "i"), (none, .cst 2)]]]

theorem exC_plain : Plain exC := by
  constructor
  · intro k n h
    exact absurd h (by simp [exC])
  · intro k b h
    exact absurd h (by simp [exC])

example : ∃ t, programText exC 0 "Generated.".toList exP exS = some t ∧ closes [] t = true := by
  have h : (programText exC 0 "Generated.".toList exP exS).isSome = true := by decide +kernel
  obtain ⟨t, ht⟩ := Option.isSome_iff_exists.1 h
  exact ⟨t, ht, C36_program exC exC_plain 0 _ (by decide) exP exP_usable exS (by decide) t ht⟩

end Verif.Props.ProgBrackets
