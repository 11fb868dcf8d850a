import Verif.Model.Options
import Mathlib.Tactic.Ring
import Mathlib.Tactic.Linarith
import Mathlib.Tactic.SplitIfs

/-!
# C29 and C30: option adjustment and the command line
-/

namespace Verif.Props.Options

open Verif.Options

/-! ## C29: adjusting `-l` -/

/-- Options that cannot violate the scattering or duplicate iterations, as the comments of
    `cloog_program_generate` describe them: `-l` (if it is a depth at all) is not inside the
    scattering dimensions, and with a first separation level other than 0 or 1, `-l` is exactly
    the number of scattering dimensions. -/
def Safe (f l n : Int) : Prop := (0 ≤ l → n ≤ l) ∧ (f ≠ 0 ∧ f ≠ 1 → l = n)

/-- With `-override` nothing changes.  Otherwise the result is safe, safe options are kept, and
    unsafe ones are replaced by the number of scattering dimensions; a second adjustment changes
    nothing. -/
theorem C29_option_fixing (override f l n : Int) (hn : 0 ≤ n) :
    (override ≠ 0 → fixLast override f l n = l) ∧
    (override = 0 → Safe f (fixLast override f l n) n ∧
      (Safe f l n → fixLast override f l n = l) ∧
      (¬ Safe f l n → fixLast override f l n = n)) ∧
    fixLast override f (fixLast override f l n) n = fixLast override f l n := by
  have key : override = 0 → Safe f (fixLast override f l n) n ∧
      (Safe f l n → fixLast override f l n = l) ∧
      (¬ Safe f l n → fixLast override f l n = n) := by
    intro h
    subst h
    unfold fixLast Safe
    simp only [ne_eq, not_true_eq_false, if_false]
    refine ⟨?_, ?_, ?_⟩ <;> split_ifs <;> omega
  refine ⟨fun h => by simp [fixLast, h], key, ?_⟩
  by_cases h : override = 0
  · subst h
    unfold fixLast
    simp only [ne_eq, not_true_eq_false, if_false]
    split_ifs <;> omega
  · simp [fixLast, h]

/-- Three scattering dimensions: `-l 1` is raised, `-f 2` resets `-l`, `-f 1 -l 5` is kept, and
    `-override` keeps anything. -/
example : fixLast 0 1 1 3 = 3 ∧ fixLast 0 2 (-1) 3 = 3 ∧ fixLast 0 1 5 3 = 5 ∧
    fixLast 1 2 1 3 = 1 := by decide

/-! ## C30: numbers on the command line -/

/-- A decimal numeral: an optional sign and at least one digit, given by its digits. -/
structure Numeral where
  neg : Bool
  plus : Bool
  digits : List (Fin 10)
  nonempty : digits ≠ []

/-- The number that a numeral denotes: the sum of the digits times powers of ten. -/
def place : List (Fin 10) → Int
  | [] => 0
  | d :: ds => (d.val : Int) * 10 ^ ds.length + place ds

def Numeral.val (n : Numeral) : Int := if n.neg then - place n.digits else place n.digits

/-- The character of a digit. -/
def digitChar (d : Fin 10) : Char := Char.ofNat (48 + d.val)

/-- How a numeral is written. -/
def Numeral.str (n : Numeral) : Str :=
  (if n.neg then ['-'] else if n.plus then ['+'] else []) ++ n.digits.map digitChar

theorem digitChar_toNat (d : Fin 10) : (digitChar d).toNat = 48 + d.val := by
  revert d; decide

theorem isdigit_digitChar (d : Fin 10) : isdigit (digitChar d) = true := by
  revert d; decide

theorem digit_not_space (d : Fin 10) : isspace (digitChar d) = false := by
  revert d; decide

theorem digit_not_sign (d : Fin 10) : digitChar d ≠ '-' ∧ digitChar d ≠ '+' := by
  revert d; decide

theorem digitsVal_go (ds : List (Fin 10)) (a : Int) :
    (ds.map digitChar).foldl (fun a c => a * 10 + ((c.toNat : Int) - 48)) a =
      a * 10 ^ ds.length + place ds := by
  induction ds generalizing a with
  | nil => simp [place]
  | cons d ds ih =>
    rw [List.map_cons, List.foldl_cons, ih, digitChar_toNat]
    simp only [place, List.length_cons, pow_succ]
    push_cast
    ring

theorem digitsVal_map (ds : List (Fin 10)) : digitsVal (ds.map digitChar) = place ds := by
  unfold digitsVal
  rw [digitsVal_go]
  ring

theorem takeWhile_digits (ds : List (Fin 10)) :
    (ds.map digitChar).takeWhile isdigit = ds.map digitChar := by
  induction ds with
  | nil => rfl
  | cons d ds ih => rw [List.map_cons, List.takeWhile_cons_of_pos (isdigit_digitChar d), ih]

theorem strtol_clamp (v : Int) (h : -2 ^ 31 ≤ v ∧ v < 2 ^ 31) :
    saturate v = v := by
  unfold saturate
  split_ifs <;> omega

/-- Reading a numeral that fits an `int` gives its number. -/
theorem strtol_numeral (n : Numeral) (h : -2 ^ 31 ≤ n.val ∧ n.val < 2 ^ 31) :
    toInt (strtol n.str) = n.val := by
  have hs : strtol n.str = n.val := by
    obtain ⟨neg, plus, ds, hne⟩ := n
    cases ds with
    | nil => exact absurd rfl hne
    | cons d ds =>
      have hsp := digit_not_space d
      obtain ⟨h1, h2⟩ := digit_not_sign d
      have htw := takeWhile_digits (d :: ds)
      have hdv := digitsVal_map (d :: ds)
      cases neg with
      | true =>
        have : (Numeral.mk true plus (d :: ds) hne).str = '-' :: (d :: ds).map digitChar := rfl
        rw [this]
        unfold strtol
        rw [List.dropWhile_cons_of_neg (by decide)]
        unfold signedVal
        rw [if_pos (by rfl), List.tail_cons, htw, hdv]
        exact strtol_clamp _ (by simpa [Numeral.val] using h)
      | false =>
        cases plus with
        | true =>
          have : (Numeral.mk false true (d :: ds) hne).str = '+' :: (d :: ds).map digitChar := rfl
          rw [this]
          unfold strtol
          rw [List.dropWhile_cons_of_neg (by decide)]
          unfold signedVal
          rw [if_neg (by simp), if_pos (by rfl), List.tail_cons, htw, hdv]
          exact strtol_clamp _ (by simpa [Numeral.val] using h)
        | false =>
          have : (Numeral.mk false false (d :: ds) hne).str = (d :: ds).map digitChar := rfl
          rw [this]
          unfold strtol
          rw [List.map_cons, List.dropWhile_cons_of_neg (by simp [hsp])]
          unfold signedVal
          rw [List.map_cons] at htw hdv
          rw [if_neg (by simpa using h1), if_neg (by simpa using h2), htw, hdv]
          exact strtol_clamp _ (by simpa [Numeral.val] using h)
  rw [hs]
  unfold toInt
  have h1 := h.1
  have h2 := h.2
  omega

/-- The items of a command line: a numeric option with its numeral, an option without argument,
    an output file, and the input file. -/
inductive Item
  | num (name : Str) (n : Numeral)
  | flag (name : Str)
  | out (file : Str)
  | file (name : Str)

/-- How an item is written. -/
def Item.args : Item → List Str
  | .num a n => [a, n.str]
  | .flag a => [a]
  | .out f => ["-o".toList, f]
  | .file f => [f]

/-- Documented numeric options and the field they set (doc/cloog.texi, section on options). -/
def numTable : List (String × Key) :=
  [("-l", .l), ("-f", .f), ("-stop", .stop), ("-strides", .strides), ("-sh", .sh),
   ("-first-unroll", .firstUnroll), ("-otl", .otl), ("-esp", .esp), ("-fsp", .fsp),
   ("-block", .block), ("-compilable", .compilable), ("-callable", .callable),
   ("-exact-clast-filtering", .exactFilter)]

/-- Options without argument and the assignments they stand for. -/
def flagTable : List (String × List (Key × Int)) :=
  [("-loopo", [(.esp, 0), (.block, 1)]), ("-bipbip", [(.backtrack, 0)]), ("-leaks", [(.leaks, 1)]),
   ("-nobacktrack", [(.backtrack, 0)]), ("-backtrack", [(.backtrack, 1)]),
   ("-override", [(.override, 1)]), ("-noblocks", [(.noblocks, 1)]),
   ("-noscalars", [(.noscalars, 1)]), ("-nosimplify", [(.nosimplify, 1)]),
   ("-struct", [(.structure, 1)]), ("-structure", [(.structure, 1)]),
   ("--quiet", [(.quiet, 1)]), ("-q", [(.quiet, 1)])]

/-- The assignments of an item. -/
def Item.sets : Item → List (Key × Int)
  | .num a n => ((numTable.lookup (String.ofList a)).map fun k => (k, n.val)).toList
  | .flag a => (flagTable.lookup (String.ofList a)).getD []
  | _ => []

/-- Items the reader knows: a documented option, a numeral in the range of `int`, a file that can
    be created, an input file name that does not start with a dash and can be read. -/
def Item.Known (w : World) : Item → Prop
  | .num a n => String.ofList a ∈ numTable.map Prod.fst ∧ -2 ^ 31 ≤ n.val ∧ n.val < 2 ^ 31
  | .flag a => String.ofList a ∈ flagTable.map Prod.fst
  | .out f => f ≠ "stdout".toList ∧ w.writable f = true
  | .file f => f.head? ≠ some '-' ∧ w.readable f = true

/-- The last value assigned to a field, or the default. -/
def lastSet (k : Key) (kvs : List (Key × Int)) (dflt : Int) : Int :=
  match kvs.reverse.find? (fun kv => kv.1 = k) with
  | some kv => kv.2
  | none => dflt

def Item.isFile : Item → Bool
  | .file _ => true
  | _ => false

def Item.fileName : Item → Option Str
  | .file f => some f
  | _ => none

def Item.outName : Item → Option Str
  | .out f => some f
  | _ => none

theorem lastSet_cons (k : Key) (kv : Key × Int) (kvs : List (Key × Int)) (d : Int) :
    lastSet k (kv :: kvs) d = lastSet k kvs (if kv.1 = k then kv.2 else d) := by
  unfold lastSet
  rw [List.reverse_cons, List.find?_append]
  cases h : kvs.reverse.find? (fun kv => kv.1 = k) with
  | some x => simp
  | none =>
    by_cases hk : kv.1 = k
    · simp [hk]
    · simp [hk]

theorem setAll_apply (kvs : List (Key × Int)) (o : Key → Int) (k : Key) :
    setAll kvs o k = lastSet k kvs (o k) := by
  induction kvs generalizing o with
  | nil => rfl
  | cons kv kvs ih =>
    rw [lastSet_cons]
    have : setAll (kv :: kvs) o = setAll kvs (Function.update o kv.1 kv.2) := rfl
    rw [this, ih]
    congr 1
    by_cases h : kv.1 = k
    · subst h; simp
    · rw [if_neg h, Function.update_of_ne (Ne.symm h)]

theorem setAll_append (a b : List (Key × Int)) (o : Key → Int) :
    setAll (a ++ b) o = setAll b (setAll a o) := by
  unfold setAll
  rw [List.foldl_append]

theorem ofList_eq {a : Str} {s : String} (h : String.ofList a = s) : a = s.toList := by
  rw [← h]; simp

theorem numKey_table : ∀ e ∈ numTable, e.1.toList.head? = some '-' ∧
    numKey e.1.toList = some e.2 ∧ numTable.lookup e.1 = some e.2 := by
  decide

theorem flagKeys_table : ∀ e ∈ flagTable, e.1.toList.head? = some '-' ∧
    numKey e.1.toList = none ∧ e.1.toList ≠ "-openscop".toList ∧
    flagKeys e.1.toList = some e.2 ∧ flagTable.lookup e.1 = some e.2 := by
  decide

/-- The state after reading known items. -/
def after (items : List Item) (st : St) : St where
  opts := setAll (items.flatMap Item.sets) st.opts
  input := (items.filterMap Item.fileName).getLast?.or st.input
  output := (items.filterMap Item.outName).getLast?.or st.output
  infos := st.infos

theorem getLast?_cons_or {α : Type} (a : α) (l : List α) (o : Option α) :
    (a :: l).getLast?.or o = l.getLast?.or (some a) := by
  cases l with
  | nil => rfl
  | cons b l =>
    rw [List.getLast?_cons_cons]
    cases h : (b :: l).getLast? with
    | none => simp at h
    | some x => rfl

theorem read_items (w : World) (items : List Item) (hk : ∀ i ∈ items, i.Known w) (st : St)
    (hf : (items.filterMap Item.fileName).length + (if st.input = none then 0 else 1) = 1) :
    readArgs w (items.flatMap Item.args) st = .ok (after items st) := by
  induction items generalizing st with
  | nil =>
    obtain ⟨o, inp, out, inf⟩ := st
    cases inp with
    | none => simp at hf
    | some f => simp [readArgs, after, setAll]
  | cons i items ih =>
    have hi := hk i (by simp)
    have hks : ∀ j ∈ items, j.Known w := fun j hj => hk j (by simp [hj])
    cases i with
    | num a n =>
      obtain ⟨ha, h1, h2⟩ := hi
      obtain ⟨e, he, hea⟩ := List.mem_map.1 ha
      have hal := ofList_eq hea.symm
      obtain ⟨t1, t2, t3⟩ := numKey_table e he
      rw [← hal] at t1 t2
      have hargs : (Item.num a n :: items).flatMap Item.args =
          a :: n.str :: items.flatMap Item.args := rfl
      rw [hargs]
      unfold readArgs
      rw [if_pos t1, t2]
      dsimp only
      rw [strtol_numeral n ⟨h1, h2⟩, ih hks _ (by exact hf)]
      have hsets : (Item.num a n).sets = [(e.2, n.val)] := by
        simp [Item.sets, ← hea, t3]
      simp only [after, List.flatMap_cons, hsets, setAll_append]
      rfl
    | flag a =>
      obtain ⟨e, he, hea⟩ := List.mem_map.1 hi
      have hal := ofList_eq hea.symm
      obtain ⟨t1, t2, t3, t4, t5⟩ := flagKeys_table e he
      rw [← hal] at t1 t2 t3 t4
      have hargs : (Item.flag a :: items).flatMap Item.args =
          a :: items.flatMap Item.args := rfl
      rw [hargs]
      unfold readArgs
      rw [if_pos t1, t2]
      dsimp only
      rw [if_neg t3, t4]
      dsimp only
      rw [ih hks _ (by exact hf)]
      have hsets : (Item.flag a).sets = e.2 := by
        simp [Item.sets, ← hea, t5]
      simp only [after, List.flatMap_cons, hsets, setAll_append]
      rfl
    | out f =>
      obtain ⟨h1, h2⟩ := hi
      have hargs : (Item.out f :: items).flatMap Item.args =
          "-o".toList :: f :: items.flatMap Item.args := rfl
      rw [hargs]
      unfold readArgs
      rw [if_pos (by decide)]
      have e1 : numKey "-o".toList = none := by decide
      have e2 : flagKeys "-o".toList = none := by decide
      rw [e1]
      dsimp only
      rw [if_neg (by decide), e2]
      dsimp only
      rw [if_neg (by decide), if_pos rfl, if_neg h1, if_pos h2,
        ih hks _ (by exact hf)]
      simp only [after, List.flatMap_cons, List.filterMap_cons, Item.sets, Item.fileName,
        Item.outName, List.nil_append, getLast?_cons_or]
    | file f =>
      obtain ⟨h1, h2⟩ := hi
      have hargs : (Item.file f :: items).flatMap Item.args =
          f :: items.flatMap Item.args := rfl
      obtain ⟨o, inp, out, inf⟩ := st
      cases inp with
      | some g => simp [Item.fileName] at hf
      | none =>
        rw [hargs]
        unfold readArgs
        rw [if_neg h1]
        dsimp only
        rw [if_pos (Or.inr h2), ih hks _ (by simpa [Item.fileName] using hf)]
        simp only [after, List.flatMap_cons, List.filterMap_cons, Item.sets, Item.fileName,
          Item.outName, List.nil_append, getLast?_cons_or]

/-- **C30, positive part.** A command line made of documented options, with every number a
    decimal numeral in the range of `int` and exactly one input file, is accepted; every field has
    the last value assigned to it, or its default; the input is the given file and the output the
    last `-o`.

    The full property also wants an error for everything else that is not a number; that is false,
    see `C30_accepts_anything`. -/
theorem C30_numbers_partial (w : World) (items : List Item) (hk : ∀ i ∈ items, i.Known w)
    (hf : (items.filterMap Item.fileName).length = 1) :
    ∃ st, readArgs w (items.flatMap Item.args) {} = .ok st ∧
      (∀ k, st.opts k = lastSet k (items.flatMap Item.sets) (defaults k)) ∧
      st.input = (items.filterMap Item.fileName).getLast? ∧
      st.output = (items.filterMap Item.outName).getLast? := by
  refine ⟨_, read_items w items hk {} (by simpa using hf), fun k => ?_, ?_, ?_⟩
  · exact setAll_apply _ _ _
  · simp [after]
  · simp [after]

/-- A numeric option at the end of the command line is an error. -/
theorem C30_missing_argument (w : World) (items : List Item) (hk : ∀ i ∈ items, i.Known w)
    (hf : (items.filterMap Item.fileName).length ≤ 1) (a : Str)
    (ha : String.ofList a ∈ numTable.map Prod.fst) :
    readArgs w (items.flatMap Item.args ++ [a]) {} = .die .lacksArgument := by
  obtain ⟨e, he, hea⟩ := List.mem_map.1 ha
  have hal := ofList_eq hea.symm
  obtain ⟨t1, t2, t3⟩ := numKey_table e he
  rw [← hal] at t1 t2
  suffices h : ∀ (items : List Item) (st : St), (∀ i ∈ items, i.Known w) →
      (items.filterMap Item.fileName).length + (if st.input = none then 0 else 1) ≤ 1 →
      readArgs w (items.flatMap Item.args ++ [a]) st = .die .lacksArgument from
    h items {} hk (by simpa using hf)
  clear hf hk items
  intro items
  induction items with
  | nil =>
    intro st _ _
    rw [List.flatMap_nil, List.nil_append]
    unfold readArgs
    rw [if_pos t1, t2]
  | cons i items ih =>
    intro st hk hf
    have hi := hk i (by simp)
    have hks : ∀ j ∈ items, j.Known w := fun j hj => hk j (by simp [hj])
    cases i with
    | num b n =>
      obtain ⟨hb, h1, h2⟩ := hi
      obtain ⟨e', he', hea'⟩ := List.mem_map.1 hb
      have hal' := ofList_eq hea'.symm
      obtain ⟨s1, s2, s3⟩ := numKey_table e' he'
      rw [← hal'] at s1 s2
      have hargs : (Item.num b n :: items).flatMap Item.args ++ [a] =
          b :: n.str :: (items.flatMap Item.args ++ [a]) := rfl
      rw [hargs]
      unfold readArgs
      rw [if_pos s1, s2]
      exact ih _ hks (by exact hf)
    | flag b =>
      obtain ⟨e', he', hea'⟩ := List.mem_map.1 hi
      have hal' := ofList_eq hea'.symm
      obtain ⟨s1, s2, s3, s4, s5⟩ := flagKeys_table e' he'
      rw [← hal'] at s1 s2 s3 s4
      have hargs : (Item.flag b :: items).flatMap Item.args ++ [a] =
          b :: (items.flatMap Item.args ++ [a]) := rfl
      rw [hargs]
      unfold readArgs
      rw [if_pos s1, s2]
      dsimp only
      rw [if_neg s3, s4]
      exact ih _ hks (by exact hf)
    | out f =>
      obtain ⟨h1, h2⟩ := hi
      have hargs : (Item.out f :: items).flatMap Item.args ++ [a] =
          "-o".toList :: f :: (items.flatMap Item.args ++ [a]) := rfl
      rw [hargs]
      unfold readArgs
      rw [if_pos (by decide)]
      have e1 : numKey "-o".toList = none := by decide
      have e2 : flagKeys "-o".toList = none := by decide
      rw [e1]
      dsimp only
      rw [if_neg (by decide), e2]
      dsimp only
      rw [if_neg (by decide), if_pos rfl, if_neg h1, if_pos h2]
      exact ih _ hks (by exact hf)
    | file f =>
      obtain ⟨h1, h2⟩ := hi
      have hargs : (Item.file f :: items).flatMap Item.args ++ [a] =
          f :: (items.flatMap Item.args ++ [a]) := rfl
      obtain ⟨o, inp, out, inf⟩ := st
      cases inp with
      | some g => simp [Item.fileName] at hf
      | none =>
        rw [hargs]
        unfold readArgs
        rw [if_neg h1]
        dsimp only
        rw [if_pos (Or.inr h2)]
        exact ih _ hks (by simpa [Item.fileName] using hf)

/-- Known items with at most one input file are read one after the other. -/
theorem read_items_append (w : World) (rest : List Str) : ∀ (items : List Item) (st : St),
    (∀ i ∈ items, i.Known w) →
    (items.filterMap Item.fileName).length + (if st.input = none then 0 else 1) ≤ 1 →
    readArgs w (items.flatMap Item.args ++ rest) st = readArgs w rest (after items st) := by
  intro items
  induction items with
  | nil => intro st _ _; simp [after, setAll]
  | cons i items ih =>
    intro st hk hf
    have hi := hk i (by simp)
    have hks : ∀ j ∈ items, j.Known w := fun j hj => hk j (by simp [hj])
    cases i with
    | num b n =>
      obtain ⟨hb, h1, h2⟩ := hi
      obtain ⟨e', he', hea'⟩ := List.mem_map.1 hb
      have hal' := ofList_eq hea'.symm
      obtain ⟨s1, s2, s3⟩ := numKey_table e' he'
      rw [← hal'] at s1 s2
      have hargs : (Item.num b n :: items).flatMap Item.args ++ rest =
          b :: n.str :: (items.flatMap Item.args ++ rest) := rfl
      rw [hargs]
      conv_lhs => unfold readArgs
      rw [if_pos s1, s2]
      dsimp only
      rw [ih _ hks (by exact hf), strtol_numeral n ⟨h1, h2⟩]
      congr 1
      have hse : Item.sets (.num b n) = [(e'.2, n.val)] := by
        simp only [Item.sets]
        rw [← hea', s3]; rfl
      simp only [after, List.flatMap_cons, hse, setAll_append, List.filterMap_cons, Item.fileName,
        Item.outName]
      rfl
    | flag b =>
      obtain ⟨e', he', hea'⟩ := List.mem_map.1 hi
      have hal' := ofList_eq hea'.symm
      obtain ⟨s1, s2, s3, s4, s5⟩ := flagKeys_table e' he'
      rw [← hal'] at s1 s2 s3 s4
      have hargs : (Item.flag b :: items).flatMap Item.args ++ rest =
          b :: (items.flatMap Item.args ++ rest) := rfl
      rw [hargs]
      conv_lhs => unfold readArgs
      rw [if_pos s1, s2]
      dsimp only
      rw [if_neg s3, s4]
      dsimp only
      rw [ih _ hks (by exact hf)]
      congr 1
      have hse : Item.sets (.flag b) = e'.2 := by
        simp only [Item.sets]
        rw [← hea', s5]; rfl
      simp only [after, List.flatMap_cons, hse, setAll_append, List.filterMap_cons, Item.fileName,
        Item.outName]
    | out f =>
      obtain ⟨h1, h2⟩ := hi
      have hargs : (Item.out f :: items).flatMap Item.args ++ rest =
          "-o".toList :: f :: (items.flatMap Item.args ++ rest) := rfl
      rw [hargs]
      conv_lhs => unfold readArgs
      rw [if_pos (by decide)]
      have e1 : numKey "-o".toList = none := by decide
      have e2 : flagKeys "-o".toList = none := by decide
      rw [e1]
      dsimp only
      rw [if_neg (by decide), e2]
      dsimp only
      rw [if_neg (by decide), if_pos rfl, if_neg h1, if_pos h2, ih _ hks (by exact hf)]
      congr 1
      simp only [after, List.flatMap_cons, Item.sets, List.nil_append, List.filterMap_cons,
        Item.fileName, Item.outName, getLast?_cons_or]
    | file f =>
      obtain ⟨h1, h2⟩ := hi
      have hargs : (Item.file f :: items).flatMap Item.args ++ rest =
          f :: (items.flatMap Item.args ++ rest) := rfl
      obtain ⟨o, inp, out, inf⟩ := st
      cases inp with
      | some g => simp [Item.fileName] at hf
      | none =>
        rw [hargs]
        conv_lhs => unfold readArgs
        rw [if_neg h1]
        dsimp only
        rw [if_pos (Or.inr h2), ih _ hks (by simpa [Item.fileName] using hf)]
        congr 1
        simp only [after, List.flatMap_cons, Item.sets, List.nil_append, List.filterMap_cons,
          Item.fileName, Item.outName, getLast?_cons_or]

/-- Without an input file, and with more than one, the command line is an error. -/
theorem C30_input_files (w : World) (items : List Item) (hk : ∀ i ∈ items, i.Known w) :
    ((items.filterMap Item.fileName).length = 0 →
      readArgs w (items.flatMap Item.args) {} = .die .noInput) ∧
    (1 < (items.filterMap Item.fileName).length →
      readArgs w (items.flatMap Item.args) {} = .die .multipleInput) := by
  constructor
  · intro h
    have := read_items_append w [] items {} hk (by simp [h])
    rw [List.append_nil] at this
    rw [this]
    simp [readArgs, after, List.length_eq_zero_iff.1 h]
  · intro h
    -- split before the second file
    obtain ⟨pre, f, post, rfl, hpre⟩ : ∃ pre f post, items = pre ++ Item.file f :: post ∧
        (pre.filterMap Item.fileName).length = 1 := by
      clear hk
      suffices H : ∀ (items : List Item) (n : Nat), n < (items.filterMap Item.fileName).length →
          ∃ pre f post, items = pre ++ Item.file f :: post ∧ (pre.filterMap Item.fileName).length = n from
        H items 1 h
      intro items
      induction items with
      | nil => intro n h; simp at h
      | cons i items ih =>
        intro n h
        cases hi : i.fileName with
        | none =>
          rw [List.filterMap_cons_none hi] at h
          obtain ⟨pre, f, post, rfl, e⟩ := ih n h
          exact ⟨i :: pre, f, post, rfl, by rw [List.filterMap_cons_none hi, e]⟩
        | some f =>
          have hif : i = .file f := by cases i <;> simp_all [Item.fileName]
          rw [List.filterMap_cons_some hi] at h
          cases n with
          | zero => exact ⟨[], f, items, by rw [hif]; rfl, rfl⟩
          | succ n =>
            obtain ⟨pre, g, post, rfl, e⟩ := ih n (by simpa using h)
            exact ⟨i :: pre, g, post, rfl, by rw [List.filterMap_cons_some hi]; simp [e]⟩
    have hkp : ∀ i ∈ pre, i.Known w := fun i hi => hk i (by simp [hi])
    have hkf := hk (.file f) (by simp)
    rw [List.flatMap_append, read_items_append w _ pre {} hkp (by simp [hpre])]
    have hargs : (Item.file f :: post).flatMap Item.args = f :: post.flatMap Item.args := rfl
    rw [hargs]
    unfold readArgs
    rw [if_neg hkf.1]
    cases hl : (after pre {}).input with
    | some g => rfl
    | none =>
      simp only [after, Option.or_none] at hl
      rw [List.getLast?_eq_none_iff] at hl
      rw [hl] at hpre; simp at hpre

def exWorld : World where
  readable := fun s => s = "a.cloog".toList
  writable := fun s => s = "a.c".toList

def num3 : Numeral := ⟨false, false, [3], by decide⟩
def numM1 : Numeral := ⟨true, false, [1], by decide⟩

/-- `cloog -f 3 -l -1 -loopo -o a.c a.cloog -f -1`: the last `-f` counts. -/
example :
    let items := [Item.num "-f".toList num3, .num "-l".toList numM1, .flag "-loopo".toList,
      .out "a.c".toList, .file "a.cloog".toList, .num "-f".toList numM1]
    (∀ i ∈ items, i.Known exWorld) ∧ (items.filterMap Item.fileName).length = 1 ∧
    lastSet .f (items.flatMap Item.sets) 1 = -1 ∧ lastSet .esp (items.flatMap Item.sets) 1 = 0 ∧
    lastSet .stop (items.flatMap Item.sets) (-1) = -1 := by
  refine ⟨?_, by decide, by decide, by decide, by decide⟩
  intro i hi
  simp only [List.mem_cons, List.not_mem_nil, or_false] at hi
  rcases hi with rfl | rfl | rfl | rfl | rfl | rfl
  · exact ⟨by decide, by decide, by decide⟩
  · exact ⟨by decide, by decide, by decide⟩
  · exact (by decide : String.ofList "-loopo".toList ∈ flagTable.map Prod.fst)
  · exact ⟨by decide, by decide⟩
  · exact ⟨by decide, by decide⟩
  · exact ⟨by decide, by decide, by decide⟩

/-- **C30 is false of the code**: after a numeric option *any* string is accepted as a value; the
    check for an invalid number never fires.  Whatever the value is, reading goes on exactly as
    with some numeral. -/
theorem C30_accepts_anything (w : World) (e : String × Key) (he : e ∈ numTable) (v : Str)
    (rest : List Str) (st : St) : ∃ x : Int,
    readArgs w (e.1.toList :: v :: rest) st =
      readArgs w rest { st with opts := Function.update st.opts e.2 x } := by
  obtain ⟨t1, t2, t3⟩ := numKey_table e he
  refine ⟨toInt (strtol v), ?_⟩
  conv_lhs => unfold readArgs
  rw [if_pos t1, t2]

/-- Witnesses: words, trailing garbage and numbers that do not fit are accepted silently. -/
theorem C30_garbage :
    toInt (strtol "two".toList) = 0 ∧ toInt (strtol "3x".toList) = 3 ∧
    toInt (strtol "".toList) = 0 ∧ toInt (strtol "4294967298".toList) = 2 := by
  decide

end Verif.Props.Options
