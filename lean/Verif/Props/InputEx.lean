import Verif.Props.Input

/-!
# C60, C61: examples, inputs that are not kept, old and new formats
-/

namespace Verif.Props.InputEx
open Verif.Options Verif.Matrix Verif.Names Verif.UnionDomain Verif.Input
open Verif.Props.Matrix Verif.Props.UnionDomain Verif.Props.Input

/-! ## A small instance -/

/-- Skip blank lines and comments. -/
def skip : Bool → Str → Str
  | _, [] => []
  | false, c :: s => if c = '\n' then skip false s else if c = '#' then skip true s else c :: s
  | true, c :: s => if c = '\n' then skip false s else skip true s

/-- Reading unary notation. -/
def tinyRd (s : Str) : Option ((Nat × Nat × Nat) × Str) :=
  let s0 := skip false s
  let s1 := s0.dropWhile (· == 'p')
  let s2 := s1.dropWhile (· == 'i')
  let s3 := s2.dropWhile (· == 'o')
  if s3.head? = some '.' then
    some (((s0.takeWhile (· == 'p')).length, (s1.takeWhile (· == 'i')).length, (s2.takeWhile (· == 'o')).length), s3.tail)
  else none

/-- Relations of which only the numbers of dimensions are known, written in unary notation. -/
def tiny : Isl (Nat × Nat × Nat) where
  rd := tinyRd
  wr := fun r => List.replicate r.1 'p' ++ (List.replicate r.2.1 'i' ++ (List.replicate r.2.2 'o' ++ ['.']))
  np := fun r => r.1
  nin := fun r => r.2.1
  nout := fun r => r.2.2
  toParam := fun r first n => if 0 ≤ first ∧ 0 ≤ n ∧ first + n ≤ r.2.2 then some (r.1 + n.toNat, r.2.1, r.2.2 - n.toNat) else none
  toIn := fun r first n => if 0 ≤ first ∧ 0 ≤ n ∧ first + n ≤ r.2.2 then some (r.1, r.2.1 + n.toNat, r.2.2 - n.toNat) else none

theorem tw_rep (c d : Char) (h : d ≠ c) (k : Nat) (s : Str) (hs : s.head? ≠ some c) :
    (List.replicate k c ++ s).takeWhile (· == c) = List.replicate k c ∧
    (List.replicate k c ++ s).dropWhile (· == c) = s := by
  rw [List.takeWhile_append_of_pos (by simp), List.dropWhile_append_of_pos (by simp)]
  cases s with
  | nil => simp
  | cons a s =>
    have : ¬ (a == c) = true := by simpa using hs
    rw [List.takeWhile_cons_of_neg (p := (· == c)) this, List.dropWhile_cons_of_neg (p := (· == c)) this]
    simp

theorem skip_head {s : Str} {c : Char} {t : Str} (h : s = c :: t) (h1 : c ≠ '\n') (h2 : c ≠ '#') : skip false s = s := by
  subst h; simp [skip, h1, h2]

theorem skip_true (l s : Str) (h : '\n' ∉ l) : skip true (l ++ '\n' :: s) = skip false s := by
  induction l with
  | nil => simp [skip]
  | cons c l ih =>
    simp only [List.mem_cons, not_or] at h
    have : c ≠ '\n' := fun h' => h.1 h'.symm
    simp only [List.cons_append, skip, this, if_false]
    exact ih h.2

theorem rep_head (k : Nat) (c : Char) (s : Str) : (List.replicate k c ++ s).head? = if k = 0 then s.head? else some c := by
  cases k with
  | zero => simp
  | succ k => simp [List.replicate_succ]

theorem tiny_text : IslText tiny where
  blank := by intro s; simp [tiny, tinyRd, skip]
  comment := by
    intro l s h
    have e : skip false ('#' :: l ++ '\n' :: s) = skip false s := by
      rw [List.cons_append, skip]
      simp only [show ¬ '#' = '\n' by decide, if_false, if_true]
      exact skip_true l s h
    show tinyRd _ = tinyRd _
    unfold tinyRd
    rw [e]
  print := by
    rintro ⟨a, b, c⟩ rest
    have e0 : tiny.wr (a, b, c) ++ rest =
        List.replicate a 'p' ++ (List.replicate b 'i' ++ (List.replicate c 'o' ++ ('.' :: rest))) := by
      simp [tiny]
    have h3 : ('.' :: rest).head? ≠ some 'o' := by simp
    have h2 : (List.replicate c 'o' ++ ('.' :: rest)).head? ≠ some 'i' := by
      rw [rep_head]; split <;> simp
    have h1 : (List.replicate b 'i' ++ (List.replicate c 'o' ++ ('.' :: rest))).head? ≠ some 'p' := by
      rw [rep_head, rep_head]; split <;> [split; skip] <;> simp
    have hs : skip false (tiny.wr (a, b, c) ++ rest) = tiny.wr (a, b, c) ++ rest := by
      have hh : (tiny.wr (a, b, c) ++ rest).head? = some 'p' ∨ (tiny.wr (a, b, c) ++ rest).head? = some 'i' ∨
          (tiny.wr (a, b, c) ++ rest).head? = some 'o' ∨ (tiny.wr (a, b, c) ++ rest).head? = some '.' := by
        rw [e0, rep_head, rep_head, rep_head]
        by_cases ha : a = 0 <;> by_cases hb : b = 0 <;> by_cases hc : c = 0 <;> simp [ha, hb, hc]
      cases hq : tiny.wr (a, b, c) ++ rest with
      | nil => rw [hq] at hh; simp at hh
      | cons x t =>
        rw [hq] at hh
        simp only [List.head?_cons, Option.some.injEq] at hh
        refine skip_head rfl ?_ ?_ <;> rintro rfl <;> revert hh <;> decide
    show tinyRd _ = _
    unfold tinyRd
    dsimp only
    rw [hs, e0, (tw_rep 'p' 'i' (by decide) a _ h1).1, (tw_rep 'p' 'i' (by decide) a _ h1).2,
      (tw_rep 'i' 'o' (by decide) b _ h2).1, (tw_rep 'i' 'o' (by decide) b _ h2).2,
      (tw_rep 'o' 'p' (by decide) c _ h3).1, (tw_rep 'o' 'p' (by decide) c _ h3).2]
    simp
  noMove := by rintro ⟨a, b, c⟩; simp [tiny]

/-- An input with one parameter, two statements, scatterings and names. -/
def exCalls (f : CStr) : List (Call (Nat × Nat × Nat) (Nat × Nat × Nat) Unit) :=
  [.setName (some .param) 0 [78], .add ⟨some f, (1, 0, 2), some (1, 2, 3), ()⟩, .add ⟨none, (1, 0, 1), some (1, 1, 3), ()⟩,
   .setName (some .iter) 1 [106], .setName (some .iter) 0 [105, 105]]

/-- The union domain made by some calls. -/
def made (cs : List (Call (Nat × Nat × Nat) (Nat × Nat × Nat) Unit)) : UD (Nat × Nat × Nat) (Nat × Nat × Nat) Unit :=
  match run tiny.nout tiny.nout cs (alloc 1) with
  | .ok ud => ud
  | .error _ => alloc 1

def exInput : Input (Nat × Nat × Nat) := ⟨.fortran, (1, 0, 0), made (exCalls [83])⟩

theorem good_one (k : Nat) (hk : k = 78 ∨ k = 105 ∨ k = 106) : GoodName (some [k]) := by
  rcases hk with rfl | rfl | rfl
  · exact ⟨['N'], rfl, by decide, by decide, by decide, by decide⟩
  · exact ⟨['i'], rfl, by decide, by decide, by decide, by decide⟩
  · exact ⟨['j'], rfl, by decide, by decide, by decide, by decide⟩

theorem exInput_dumpable : Dumpable tiny exInput where
  api := ⟨exCalls [83], rfl⟩
  ctx := rfl
  doms := by
    intro a ha
    simp only [exInput, made, exCalls, run, step, addDomain, setName, alloc] at ha
    revert a
    decide
  scats := by
    have : ∀ a ∈ exInput.ud.domains, ∀ s ∈ a.scat, tiny.np s = 1 ∧ tiny.nin s = tiny.nout a.dom := by decide
    intro a ha s hs
    exact this a ha s (by simp [hs])
  all := .inl (by decide)
  names := by
    intro t l hl
    cases t with
    | param =>
      have : l = [some [78]] := by
        have h : exInput.ud.names .param = some [some [78]] := rfl
        rw [h] at hl; simpa using hl.symm
      subst this
      exact ⟨by intro x hx; simp only [List.mem_singleton] at hx; subst hx; exact good_one 78 (by simp), by decide⟩
    | iter =>
      have : l = [some [105, 105], some [106]] := by
        have h : exInput.ud.names .iter = some [some [105, 105], some [106]] := rfl
        rw [h] at hl; simpa using hl.symm
      subst this
      refine ⟨?_, by decide⟩
      intro x hx
      simp only [List.mem_cons, List.not_mem_nil, or_false] at hx
      rcases hx with rfl | rfl
      · exact ⟨['i', 'i'], rfl, by decide, by decide, by decide, by decide⟩
      · exact good_one 106 (by simp)
    | scat =>
      have h : exInput.ud.names .scat = none := rfl
      rw [h] at hl; cases hl
  stmts := by
    have : ∀ a ∈ exInput.ud.domains, ∀ s ∈ a.name, '\n' ∉ s.map Char.ofNat := by decide
    intro a ha s hs
    exact this a ha s (by simp [hs])
  few := by decide

example : ∃ text rest, dump tiny exInput = some text ∧ readInput tiny text = .ok (⟨.fortran, (1, 0, 0),
    ⟨exInput.ud.n, exInput.ud.names, exInput.ud.domains.map fun a => { a with name := none }⟩⟩, rest) :=
  C60_dump_read_partial tiny_text exInput_dumpable

/-- A file with comments, blank lines and old style parameters. -/
def exFile : Str := "# comment\n\nc # language\n# context\no.1 names\n  # the name\n  N # comment\n\n2 # statements\nooo.0 0 0\npo.\n0 0 0\n0 no names\n".toList

/-- What can be compared of an input. -/
structure View where
  language : Language
  context : Nat × Nat × Nat
  domains : List (Option CStr × (Nat × Nat × Nat) × Option (Nat × Nat × Nat))
  params : Option (List (Option CStr))
  iters : Option (List (Option CStr))
  scats : Option (List (Option CStr))
  deriving DecidableEq

/-- What can be compared of a result. -/
def view : Res (Input (Nat × Nat × Nat) × Str) → Res View
  | .ok (i, _) => .ok (View.mk i.language i.context (i.ud.domains.map fun a => (a.name, a.dom, a.scat))
      (i.ud.names .param) (i.ud.names .iter) (i.ud.names .scat))
  | .die => .die
  | .ub => .ub
  | .hang => .hang
  | .isl => .isl

example : view (readInput tiny exFile) = .ok ⟨.c, (1, 0, 0), [(none, (1, 0, 2), none), (none, (1, 0, 1), none)],
    some [some [78]], none, none⟩ := by decide +kernel

/-- The file of the example is one of those `C60_read` is about. -/
example : ∃ rest, readInput tiny (file ["c".toList] ++ ("o.".toList ++ (file ["0".toList] ++ (file ["1".toList] ++
    (("oo.".toList ++ (file ["0 0 0".toList] ++ [])) ++ (file ["0".toList] ++ (file []))))))) =
    .ok (⟨.c, (1, 0, 0), union tiny 1 [(1, 0, 1)] none (fun _ => none)⟩, rest) := by
  have hn : ∀ k : Nat, k < 10 → Number (printNat k) k := by
    intro k hk; have := number_text k [] (by simp) (by omega); simpa using this
  have hg : ∀ k : Nat, k < 10 → GoodLine (printNat k) := by
    intro k hk; exact ⟨digits_nl k, by have := printNat_length k (by omega); omega⟩
  have h0 : ∀ nb : Int, NamesSec nb ["0".toList] none := fun nb =>
    .off (pre := []) (k := 0) (by simp) (hg 0 (by omega)) (hn 0 (by omega)) (.inr rfl)
  have hd : ParsesDom tiny 1 "oo.".toList (1, 0, 1) := by
    refine ⟨(0, 0, 2), ?_, ?_⟩
    · intro rest
      exact tiny_text.print (0, 0, 2) rest
    · rw [if_neg (by decide)]; decide
  have := C60_read tiny (A := ["c".toList]) (P := ["0".toList]) (C := ["1".toList]) (I := ["0".toList]) (c := 'c')
    (tctx := "o.".toList) (r := (0, 0, 1)) (ctx := (1, 0, 0)) (ds := [(1, 0, 1)]) (ss := none) (pn := none) (its := none) (sn := none)
    (D := "oo.".toList ++ (file ["0 0 0".toList] ++ [])) (S := file [])
    (.mk (pre := []) (by simp) (good_small (by decide) (by decide)) (by decide) (by decide))
    (fun rest => tiny_text.print (0, 0, 1) rest) (by decide) (h0 _)
    (.mk (pre := []) (by simp) (hg 1 (by omega)) (by decide) (hn 1 (by omega)))
    (.cons hd (.mk (pre := []) (by simp) (good_small (by decide) (by decide)) (by decide)
      ⟨0, 0, 0, [], [' '], [' '], [], by decide +kernel, by decide, by decide, by decide⟩) .nil)
    (h0 _) (.eof (pre := []) (by simp))
  obtain ⟨rest, h⟩ := this
  refine ⟨rest, h.trans ?_⟩
  congr 3
  unfold union
  congr 1
  · funext t; cases t <;> rfl

/-! ## What is not kept -/

/-- The text of the dump, empty if there is none. -/
def dumped (i : Input (Nat × Nat × Nat)) : Str := (dump tiny i).getD []

/-- **C60, statement names.**  The dump does not keep the names of statements: an input that differs from
    another in these only has the same file up to comments, and both are read as the same input. -/
theorem C60_statement_names_lost : (exInput.ud.domains.map Named.name) = [some [83], none] ∧
    (match readInput tiny (dumped exInput) with
      | .ok (i, _) => i.ud.domains.map Named.name
      | _ => []) = [none, none] := by
  constructor
  · rfl
  · decide +kernel

/-- **C60, mixed scatterings.**  If the first statement has no scattering, the scatterings of the others are
    not dumped. -/
theorem C60_scattering_dropped :
    view (readInput tiny (dumped ⟨.c, (1, 0, 0), made [.add ⟨none, (1, 0, 1), none, ()⟩, .add ⟨none, (1, 0, 1), some (1, 1, 2), ()⟩]⟩)) =
      .ok ⟨.c, (1, 0, 0), [(none, (1, 0, 1), none), (none, (1, 0, 1), none)], none, none, none⟩ := by decide +kernel

/-- **C60, mixed scatterings.**  If only the first statement has a scattering, a null pointer is given to
    isl. -/
theorem C60_scattering_null :
    dump tiny ⟨.c, (1, 0, 0), made [.add ⟨none, (1, 0, 1), some (1, 1, 2), ()⟩, .add ⟨none, (1, 0, 1), none, ()⟩]⟩ = none := by
  rfl

/-- **C60, names with blanks.**  Nothing stops a name with a blank; its parts are read as two names. -/
theorem C60_name_blank :
    view (readInput tiny (dumped ⟨.c, (2, 0, 0), match run tiny.nout tiny.nout
      [.setName (some .param) 0 [97, 32, 98], .setName (some .param) 1 [99]] (alloc 2) with
      | .ok ud => ud
      | .error _ => alloc 2⟩)) = .ok ⟨.c, (2, 0, 0), [], some [some [97], some [98]], none, none⟩ := by decide +kernel

/-- **C60, missing names.**  A dimension without a name gets the name `(null)`. -/
theorem C60_name_null :
    view (readInput tiny (dumped ⟨.c, (1, 0, 0), made [.add ⟨none, (1, 0, 2), none, ()⟩, .setName (some .iter) 1 [106]]⟩)) =
      .ok ⟨.c, (1, 0, 0), [(none, (1, 0, 2), none)], none, some [some ("(null)".toList.map Char.toNat), some [106]], none⟩ := by
  decide +kernel

/-- **C60, long names.**  A name of 50 characters or more overruns a buffer when it is read. -/
theorem C60_long_name {pre cs : List Str} {opt w : Str} {k : Int} {n : Str} {ns : List Str} {nb : Int} (r : Str)
    (hp : ∀ l ∈ pre, GoodLine l ∧ Silent l) (hg : GoodLine opt) (hk : Number opt k) (hk0 : k ≠ 0)
    (hcs : ∀ l ∈ cs, GoodLine l ∧ isData l = false) (hgw : GoodLine w) (hdw : isData w = true) (hw : words w = n :: ns)
    (hn : n.head? ≠ some '#') (hl : 50 ≤ n.length) (hnb : 0 < nb) :
    readNames nb (file (pre ++ opt :: (cs ++ [w])) ++ r) = .ub := by
  unfold readNames
  have he : file (pre ++ opt :: (cs ++ [w])) ++ r = file (pre ++ [opt]) ++ (file (cs ++ [w]) ++ r) := by simp [file]
  rw [he, readOption_file hp hg hk _ _ (by
    have := length_file (pre ++ [opt]) (file (cs ++ [w]) ++ r)
    simp only [List.length_append, List.length_singleton] at this ⊢; omega), ok_bind]
  dsimp only
  rw [if_neg (by omega), if_neg hk0, if_neg (by omega),
    nextLine_file _ (cs ++ [w]) r (by
      intro l hl
      rcases List.mem_append.1 hl with hl | hl
      · exact (hcs l hl).1
      · simp only [List.mem_singleton] at hl; subst hl; exact hgw)
      (by have := length_file (cs ++ [w]) r; omega) w [] (by
        rw [List.dropWhile_append_of_pos (by intro l hl; simp [(hcs l hl).2])]
        rw [List.dropWhile_cons_of_neg (by simp [hdw])])]
  obtain ⟨m, hm⟩ : ∃ m, nb.toNat = m + 1 := ⟨nb.toNat - 1, by omega⟩
  dsimp only
  rw [hm, readWords]
  have hx : words (w.dropWhile isspace ++ ['\n']) = n :: ns := by rw [words_line, hw]
  have hne : (w.dropWhile isspace ++ ['\n']).dropWhile isspace ≠ [] := by
    intro h; rw [words_eq_nil _ h] at hx; cases hx
  have hs := words_split _ hne
  rw [hs] at hx
  obtain ⟨h1, -⟩ := List.cons.inj hx
  dsimp only
  rw [if_neg, h1, if_pos (by unfold maxName; exact hl)]
  · rfl
  · rintro (h | h)
    · exact hne h
    · apply hn
      rw [← h1]
      cases hq : (w.dropWhile isspace ++ ['\n']).dropWhile isspace with
      | nil => exact absurd hq hne
      | cons a s =>
        rw [hq] at h
        simp only [List.head?_cons, Option.some.injEq] at h
        subst h
        rw [List.takeWhile_cons_of_pos (by decide)]
        rfl

example : readNames 1 (file ["1".toList, List.replicate 50 'x']) = .ub := by decide +kernel

/-- **C60, truncated files.**  If the file ends before the line with the name option, reading never ends. -/
theorem C60_truncated {ls : List Str} (h : ∀ l ∈ ls, GoodLine l ∧ Silent l) (nb : Int) :
    readNames nb (file ls) = .hang := by
  have key : ∀ (ls : List Str) (fuel : Nat), (∀ l ∈ ls, GoodLine l ∧ Silent l) → readOption fuel (file ls) = .hang := by
    intro ls
    induction ls with
    | nil => intro fuel _; cases fuel <;> rfl
    | cons a ls ih =>
      intro fuel h
      cases fuel with
      | zero => rfl
      | succ fuel =>
        have ha := h a (by simp)
        have h2 := ih fuel (fun x hx => h x (by simp [hx]))
        rw [readOption, file_cons, fgets_line ha.1]
        dsimp only
        rw [ha.2.scan]
        split <;> exact h2
  unfold readNames
  rw [key ls _ h]
  rfl

/-- A file that ends after the context. -/
theorem C60_truncated_input {R : Type} (o : Isl R) {A ls : List Str} {tctx : Str} {c : Char} {r ctx : R}
    (hA : DataSec (fun l => l.head? = some c) A) (hctx : Parses o tctx r) (hctx' : o.toParam r 0 (o.nout r) = some ctx)
    (h : ∀ l ∈ ls, GoodLine l ∧ Silent l) : readInput o (file A ++ (tctx ++ file ls)) = .hang := by
  obtain ⟨l, ea, hl⟩ := nextRaw_file hA ((file A ++ (tctx ++ file ls)).length + 1) (tctx ++ file ls) (by
    have := length_file A (tctx ++ file ls); omega)
  unfold readInput
  rw [ea]
  dsimp only
  unfold readContext
  rw [hctx, ofIsl_some, ok_bind, hctx', ofIsl_some, ok_bind, ok_bind]
  unfold readUnion
  dsimp only
  rw [C60_truncated h]
  rfl

example : readInput tiny "c\noo.\n# the end\n".toList = .hang := by rfl

/-- **C60, number of scatterings.**  A number of scatterings that is neither 0 nor the number of domains is an
    error. -/
theorem C60_wrong_number {R : Type} (o : Isl R) {A P C I pre : List Str} {tctx D l : Str} {c : Char} {r ctx : R} {ds : List R}
    {pn its : Option (List Str)} {k : Int} (rest : Str)
    (hA : DataSec (fun l => l.head? = some c) A)
    (hctx : Parses o tctx r) (hctx' : o.toParam r 0 (o.nout r) = some ctx)
    (hP : NamesSec (o.np ctx) P pn)
    (hC : DataSec (fun l => Number l ds.length) C)
    (hD : DomText o (o.np ctx) ds D)
    (hI : NamesSec (if ds = [] then (-1 : Int) else ((largest (ds.map o.nout) : Nat) : Int)) I its)
    (hp : ∀ l ∈ pre, GoodLine l ∧ Silent l) (hl : GoodLine l) (hk : Number l k) (h0 : k ≠ 0) (hn : k ≠ ds.length) :
    readInput o (file A ++ (tctx ++ (file P ++ (file C ++ (D ++ (file I ++ (file (pre ++ [l]) ++ rest))))))) = .die := by
  have hS : readScatList o ds (file (pre ++ [l]) ++ rest) = .die := by
    unfold readScatList
    rw [readCount_file hp hl hk rest _ (by
      have := length_file (pre ++ [l]) rest; simp only [List.length_append, List.length_singleton] at this ⊢; omega)]
    dsimp only
    rw [if_neg h0, if_pos hn]
  generalize file (pre ++ [l]) ++ rest = S at *
  obtain ⟨la, ea, hla⟩ := nextRaw_file hA
    ((file A ++ (tctx ++ (file P ++ (file C ++ (D ++ (file I ++ S)))))).length + 1)
    (tctx ++ (file P ++ (file C ++ (D ++ (file I ++ S))))) (by
      have := length_file A (tctx ++ (file P ++ (file C ++ (D ++ (file I ++ S))))); omega)
  obtain ⟨lc, ec, hnum⟩ := nextRaw_file hC ((file C ++ (D ++ (file I ++ S))).length + 1) (D ++ (file I ++ S)) (by
    have := length_file C (D ++ (file I ++ S)); omega)
  obtain ⟨q, hq⟩ := hnum.scan
  have hmax : maxDim o ds = if ds = [] then (-1 : Int) else ((largest (ds.map o.nout) : Nat) : Int) := by
    by_cases h : ds = []
    · subst h; rfl
    · rw [if_neg h, maxDim_eq o ds h]
  unfold readInput
  rw [ea]
  dsimp only
  unfold readContext
  rw [hctx, ofIsl_some, ok_bind, hctx', ofIsl_some, ok_bind, ok_bind]
  unfold readUnion
  dsimp only
  rw [readNames_sec hP, ok_bind]
  dsimp only
  rw [nameCalls_sec o .param hP (alloc (o.np ctx)) rfl rfl, ok_bind, ec]
  dsimp only
  rw [hq]
  dsimp only
  rw [if_neg (by omega), Int.toNat_natCast, readDomains_ok hD, ok_bind]
  dsimp only
  rw [hmax, readNames_sec hI, ok_bind]
  dsimp only
  rw [hS]
  rfl

example : readInput tiny "c\no.\n0\n1\noo.\n0 0 0\n0\n2\n".toList = .die ∧
    readInput tiny "c\no.\n0\n2\noo.\n0 0 0\noo.\n0 0 0\n0\n1\n".toList = .die := ⟨rfl, rfl⟩

/-- **C60, the language.**  Only the first column counts: after a blank the letter is not seen. -/
theorem C60_language_column :
    view (readInput tiny "f\n.0\n0\n0\n0\n".toList) = .ok ⟨.fortran, (0, 0, 0), [], none, none, none⟩ ∧
    view (readInput tiny " f\n.0\n0\n0\n0\n".toList) = .ok ⟨.c, (0, 0, 0), [], none, none, none⟩ := by
  constructor <;> decide +kernel

/-! ## Formats of domains and scatterings -/

/-- Relations between integer tuples with parameters. -/
structure Rel where
  np : Nat
  nin : Nat
  nout : Nat
  mem : List Int → List Int → List Int → Prop

/-- `n` output dimensions from `first` on become the first parameters. -/
def Rel.moveP (r : Rel) (first n : Nat) : Rel :=
  ⟨r.np + n, r.nin, r.nout - n, fun p i x => r.mem (p.drop n) i (x.take first ++ p.take n ++ x.drop first)⟩

/-- `n` output dimensions from `first` on become the first input dimensions. -/
def Rel.moveI (r : Rel) (first n : Nat) : Rel :=
  ⟨r.np, r.nin + n, r.nout - n, fun p i x => r.mem p (i.drop n) (x.take first ++ i.take n ++ x.drop first)⟩

/-- isl with relations as sets of points (parameters, input, output): moving dimensions only renames
    them. -/
def relOps (rd : Str → Option (Rel × Str)) (wr : Rel → Str) : Isl Rel where
  rd := rd
  wr := wr
  np := Rel.np
  nin := Rel.nin
  nout := Rel.nout
  toParam := fun r first n => if 0 ≤ first ∧ 0 ≤ n ∧ first + n ≤ r.nout then some (r.moveP first.toNat n.toNat) else none
  toIn := fun r first n => if 0 ≤ first ∧ 0 ≤ n ∧ first + n ≤ r.nout then some (r.moveI first.toNat n.toNat) else none

theorem toParam_eq (rd : Str → Option (Rel × Str)) (wr : Rel → Str) (r : Rel) (f n : Nat) (h : f + n ≤ r.nout) :
    (relOps rd wr).toParam r f n = some (r.moveP f n) := by
  simp only [relOps, Int.toNat_natCast]
  rw [if_pos ⟨by omega, by omega, by omega⟩]

theorem toIn_eq (rd : Str → Option (Rel × Str)) (wr : Rel → Str) (r : Rel) (f n : Nat) (h : f + n ≤ r.nout) :
    (relOps rd wr).toIn r f n = some (r.moveI f n) := by
  simp only [relOps, Int.toNat_natCast]
  rw [if_pos ⟨by omega, by omega, by omega⟩]

/-- **C61, domains.**  A set of `d + nb` dimensions without parameters (the old format) is read as the set of
    `d` dimensions with the last `nb` dimensions as parameters; a set with `nb` parameters (the new format)
    is read as it is. -/
theorem C61_domain (rd : Str → Option (Rel × Str)) (wr : Rel → Str) {t : Str} {r : Rel} {nb d : Nat}
    (h : Parses (relOps rd wr) t r) (rest : Str) :
    (r.np = nb → readDomain (relOps rd wr) nb (t ++ rest) = .ok (r, rest)) ∧
    (r.np = 0 → r.nin = 0 → r.nout = d + nb → 0 < nb → ∃ s, readDomain (relOps rd wr) nb (t ++ rest) = .ok (s, rest) ∧
      s.np = nb ∧ s.nin = 0 ∧ s.nout = d ∧
      ∀ p x : List Int, p.length = nb → x.length = d → (s.mem p [] x ↔ r.mem [] [] (x ++ p))) := by
  constructor
  · intro h1
    refine readDomain_ok ⟨r, h, ?_⟩ rest
    show if r.np = nb then _ else _
    rw [if_pos h1]
  · intro h1 h2 h3 h4
    refine ⟨r.moveP d nb, readDomain_ok ⟨r, h, ?_⟩ rest, by simp [Rel.moveP, h1], h2, by simp [Rel.moveP]; omega, ?_⟩
    · show if r.np = nb then _ else (relOps rd wr).toParam r ((r.nout : Int) - nb) nb = _
      rw [if_neg (by omega), show (r.nout : Int) - nb = (d : Int) by omega, toParam_eq _ _ _ _ _ (by omega)]
    · intro p x hp hx
      simp [Rel.moveP, ← hp, ← hx]

/-- **C61, context.**  All dimensions of the context become parameters. -/
theorem C61_context (rd : Str → Option (Rel × Str)) (wr : Rel → Str) {t : Str} {r : Rel}
    (h : Parses (relOps rd wr) t r) (rest : Str) (h1 : r.np = 0) (h2 : r.nin = 0) :
    ∃ s, readContext (relOps rd wr) (t ++ rest) = .ok (s, rest) ∧ s.np = r.nout ∧ s.nin = 0 ∧ s.nout = 0 ∧
      ∀ p : List Int, p.length = r.nout → (s.mem p [] [] ↔ r.mem [] [] p) := by
  refine ⟨r.moveP 0 r.nout, ?_, by simp [Rel.moveP, h1], h2, by simp [Rel.moveP], ?_⟩
  · have e : (relOps rd wr).toParam r 0 ((relOps rd wr).nout r) = some (r.moveP 0 r.nout) :=
      toParam_eq rd wr r 0 r.nout (by omega)
    unfold readContext
    rw [h, ofIsl_some, ok_bind, e, ofIsl_some, ok_bind]
  · intro p hp
    simp [Rel.moveP, ← hp]

/-- **C61, scatterings.**  A set of `n + d + nb` dimensions without parameters (the old format: scattering
    dimensions, iterators, parameters) is read as the relation from iterators to scattering dimensions; a
    relation with the right numbers of dimensions is read as it is. -/
theorem C61_scattering (rd : Str → Option (Rel × Str)) (wr : Rel → Str) {t : Str} {r dom : Rel} {n : Nat}
    (h : Parses (relOps rd wr) t r) (rest : Str) :
    (r.np = dom.np → r.nin = dom.nout → readScattering (relOps rd wr) dom (t ++ rest) = .ok (r, rest)) ∧
    (r.np = 0 → r.nin = 0 → r.nout = n + dom.nout + dom.np → ∃ s,
      readScattering (relOps rd wr) dom (t ++ rest) = .ok (s, rest) ∧
      s.np = dom.np ∧ s.nin = dom.nout ∧ s.nout = n ∧
      ∀ p i x : List Int, p.length = dom.np → i.length = dom.nout → x.length = n →
        (s.mem p i x ↔ r.mem [] [] (x ++ i ++ p))) := by
  constructor
  · intro h1 h2
    refine readScattering_ok ⟨r, r, h, ?_, ?_⟩ rest
    · show if r.np = dom.np then _ else _
      rw [if_pos h1]
    · show if r.nin = dom.nout then _ else _
      rw [if_pos h2]
  · intro h1 h2 h3
    -- the parameters
    have s1 : ∃ r' : Rel, (if r.np = dom.np then r' = r else (relOps rd wr).toParam r ((r.nout : Int) - dom.np) dom.np = some r') ∧
        r'.np = dom.np ∧ r'.nin = 0 ∧ r'.nout = n + dom.nout ∧ ∀ p y : List Int, p.length = dom.np → y.length = n + dom.nout →
          (r'.mem p [] y ↔ r.mem [] [] (y ++ p)) := by
      by_cases h0 : dom.np = 0
      · refine ⟨r, by rw [if_pos (by omega)], by omega, h2, by omega, ?_⟩
        intro p y hp _
        rw [h0] at hp
        have : p = [] := List.length_eq_zero_iff.1 hp
        subst this
        simp
      · refine ⟨r.moveP (n + dom.nout) dom.np, ?_, by simp [Rel.moveP, h1], h2, by simp [Rel.moveP]; omega, ?_⟩
        · rw [if_neg (by omega), show (r.nout : Int) - dom.np = ((n + dom.nout : Nat) : Int) by omega,
            toParam_eq _ _ _ _ _ (by omega)]
        · intro p y hp hy
          simp [Rel.moveP, ← hp, ← hy]
    obtain ⟨r', hr', g1, g2, g3, g4⟩ := s1
    have s2 : ∃ s : Rel, (if r'.nin = dom.nout then s = r' else (relOps rd wr).toIn r' ((r'.nout : Int) - dom.nout) dom.nout = some s) ∧
        s.np = dom.np ∧ s.nin = dom.nout ∧ s.nout = n ∧ ∀ p i x : List Int, p.length = dom.np → i.length = dom.nout → x.length = n →
          (s.mem p i x ↔ r'.mem p [] (x ++ i)) := by
      by_cases h0 : dom.nout = 0
      · refine ⟨r', by rw [if_pos (by omega)], g1, by omega, by omega, ?_⟩
        intro p i x _ hi _
        rw [h0] at hi
        have : i = [] := List.length_eq_zero_iff.1 hi
        subst this
        simp
      · refine ⟨r'.moveI n dom.nout, ?_, g1, by simp [Rel.moveI, g2], by simp [Rel.moveI]; omega, ?_⟩
        · rw [if_neg (by omega), show (r'.nout : Int) - dom.nout = (n : Int) by omega, toIn_eq _ _ _ _ _ (by omega)]
        · intro p i x hp hi hx
          simp [Rel.moveI, ← hi, ← hx]
    obtain ⟨s, hs, k1, k2, k3, k4⟩ := s2
    refine ⟨s, readScattering_ok ⟨r, r', h, hr', hs⟩ rest, k1, k2, k3, ?_⟩
    intro p i x hp hi hx
    rw [k4 p i x hp hi hx, g4 p (x ++ i) hp (by simp [hi, hx])]

/-- **C61, wrong numbers of parameters.**  A set with another number of parameters, not 0, is accepted and
    gets parameters that do not exist. -/
theorem C61_wrong_parameters (rd : Str → Option (Rel × Str)) (wr : Rel → Str) {t : Str} {r : Rel} {nb : Nat}
    (h : Parses (relOps rd wr) t r) (rest : Str) (h1 : r.np ≠ nb) (h2 : 0 < r.np) (h3 : nb ≤ r.nout) :
    ∃ s, readDomain (relOps rd wr) nb (t ++ rest) = .ok (s, rest) ∧ nb < s.np := by
  refine ⟨r.moveP (r.nout - nb) nb, readDomain_ok ⟨r, h, ?_⟩ rest, by simp [Rel.moveP]; omega⟩
  show if r.np = nb then _ else (relOps rd wr).toParam r ((r.nout : Int) - nb) nb = _
  rw [if_neg h1, show (r.nout : Int) - nb = ((r.nout - nb : Nat) : Int) by omega, toParam_eq _ _ _ _ _ (by omega)]

/-- The set `i = N` in the old format, read as a set with one parameter. -/
example : ∃ s, readDomain (relOps (fun s => some (⟨0, 0, 2, fun _ _ x => x.getD 0 0 = x.getD 1 0⟩, s)) (fun _ => [])) 1
    ([] ++ "rest".toList) = .ok (s, "rest".toList) ∧ s.np = 1 ∧ s.nin = 0 ∧ s.nout = 1 ∧
    ∀ p x : List Int, p.length = 1 → x.length = 1 → (s.mem p [] x ↔ (x ++ p).getD 0 0 = (x ++ p).getD 1 0) :=
  (C61_domain (fun s => some (⟨0, 0, 2, fun _ _ x => x.getD 0 0 = x.getD 1 0⟩, s)) (fun _ => []) (t := [])
    (nb := 1) (d := 1) (fun _ => rfl) _).2 rfl rfl rfl (by omega)

/-- The scattering `t = i + N` in the old format. -/
example : ∃ s, readScattering (relOps (fun s => some (⟨0, 0, 3, fun _ _ x => x.getD 0 0 = x.getD 1 0 + x.getD 2 0⟩, s))
    (fun _ => [])) ⟨1, 0, 1, fun _ _ _ => True⟩ ([] ++ "rest".toList) = .ok (s, "rest".toList) ∧ s.np = 1 ∧ s.nin = 1 ∧ s.nout = 1 ∧
    ∀ p i x : List Int, p.length = 1 → i.length = 1 → x.length = 1 →
      (s.mem p i x ↔ (x ++ i ++ p).getD 0 0 = (x ++ i ++ p).getD 1 0 + (x ++ i ++ p).getD 2 0) :=
  (C61_scattering (fun s => some (⟨0, 0, 3, fun _ _ x => x.getD 0 0 = x.getD 1 0 + x.getD 2 0⟩, s)) (fun _ => []) (t := [])
    (n := 1) (fun _ => rfl) _).2 rfl rfl rfl

end Verif.Props.InputEx
