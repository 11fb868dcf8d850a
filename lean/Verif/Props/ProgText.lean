import Verif.Model.ProgText
import Verif.Props.PText
import Verif.Props.ClastNames

/-!
# C56, C57: compilable and callable programs

What the C preprocessor and a reader of declarations see in the text that `-compilable` and `-callable` put
around the generated code.
-/

namespace Verif.Props.ProgText
open Verif.PText Verif.ProgText Verif.CText Verif.PLex Verif.Props.PText Verif.PPrint

/-! ## The preprocessor -/

/-- The fields of a text that are separated by `c`; `acc` is the current one. -/
def fields (c : Char) : List Char → List Char → List (List Char)
  | acc, [] => [acc]
  | acc, d :: cs => if d = c then acc :: fields c [] cs else fields c (acc ++ [d]) cs

/-- A macro: its name, its parameters (none for a macro that is not called), its text. -/
structure Macro where
  name : List Char
  params : Option (List (List Char))
  body : List Char
  deriving DecidableEq

/-- The macro defined by a line (C11, 6.10.3): a parenthesis directly behind the name starts the parameters. -/
def defineOf (line : List Char) : Option Macro :=
  if "#define ".toList.isPrefixOf line then
    let r := line.drop 8
    match r.dropWhile wordChar with
    | '(' :: q =>
      let ps := q.takeWhile (fun c => !(c == ')'))
      some ⟨r.takeWhile wordChar, some (if ps = [] then [] else fields ',' [] ps),
        (q.dropWhile (fun c => !(c == ')'))).drop 1⟩
    | q => some ⟨r.takeWhile wordChar, none, q⟩
  else none

/-- The macros defined by a text, in order. -/
def defs (cs : List Char) : List Macro := (linesOf [] cs).filterMap defineOf

/-- A word of the text of a macro after substitution. -/
def replace (σ : List (List Char × List Char)) (w : List Char) : List Char := (σ.lookup w).getD w

/-- Replace the words of a text (C11, 6.10.3.1) outside of string literals; `w` is the current word. -/
def subst (σ : List (List Char × List Char)) : Bool → List Char → List Char → List Char
  | _, w, [] => replace σ w
  | true, _, '\\' :: c :: cs => '\\' :: c :: subst σ true [] cs
  | true, _, c :: cs => c :: subst σ (!(c == '"')) [] cs
  | false, w, c :: cs => if wordChar c then subst σ false (w ++ [c]) cs
    else replace σ w ++ c :: subst σ (c == '"') [] cs

/-- What a call of a macro is replaced by; nothing if the number of arguments is wrong. -/
def Macro.call (m : Macro) (args : List (List Char)) : Option (List Char) :=
  match m.params with
  | none => none
  | some ps => if ps.length = args.length then some (subst (ps.zip args) false [] m.body) else none

/-! ### Lines -/

theorem defs_line {a : List Char} (h : '\n' ∉ a) (rest : List Char) :
    defs (a ++ '\n' :: rest) = (defineOf a).toList ++ defs rest := by
  unfold defs
  rw [linesOf_line h, List.nil_append, List.filterMap_cons]
  cases defineOf a <;> rfl

theorem linesOf_block : ∀ (m : List Char) (acc rest : List Char),
    linesOf acc (m ++ '\n' :: rest) = linesOf acc m ++ linesOf [] rest
  | [], acc, rest => by simp [linesOf]
  | c :: m, acc, rest => by
    rw [List.cons_append, linesOf, linesOf]
    split
    · rw [linesOf_block m, List.cons_append]
    · rw [linesOf_block m]

theorem defs_block (m rest : List Char) : defs (m ++ '\n' :: rest) = defs m ++ defs rest := by
  unfold defs
  rw [linesOf_block, List.filterMap_append]

/-- A literal made of complete lines. -/
theorem defs_lit {s : String} {m : List Char} (h : s.toList = m ++ ['\n']) (rest : List Char) :
    defs (lit s ++ rest) = defs m ++ defs rest := by
  rw [lit_eq, h, List.append_assoc]
  exact defs_block m rest

/-- Identifiers are words. -/
theorem ident_word {s : String} (h : ident s = true) : s.toList.all wordChar = true ∧ s.toList ≠ [] ∧
    ∀ c, s.toList.head? = some c → c.isDigit = false := by
  unfold ident at h
  split at h
  · cases h
  · rename_i c w hs
    simp only [Bool.and_eq_true, Bool.not_eq_true'] at h
    rw [hs]
    simp [h.1.1, h.1.2, h.2]

theorem intC_digits (k : Nat) : (∀ c ∈ intC (k : Int), c.isDigit = true ∧ wordChar c = true) ∧ intC (k : Int) ≠ [] := by
  unfold intC
  rw [if_neg (by omega)]
  have := dec_props ((k : Int).natAbs + 1) (k : Int).natAbs (by omega)
  exact ⟨this.1, this.2.2.1⟩

theorem word_ne {c d : Char} (h : wordChar c = true) (hd : wordChar d = false) : c ≠ d := by
  rintro rfl
  rw [h] at hd
  cases hd

theorem not_mem_word {s : List Char} (h : s.all wordChar = true) {d : Char} (hd : wordChar d = false) : d ∉ s :=
  fun hm => word_ne (List.all_eq_true.1 h d hm) hd rfl

/-! ### Fields -/

theorem fields_word {c : Char} : ∀ {a : List Char}, c ∉ a → ∀ acc rest, fields c acc (a ++ c :: rest) = (acc ++ a) :: fields c [] rest
  | [], _, acc, rest => by simp [fields]
  | d :: a, h, acc, rest => by
    simp only [List.mem_cons, not_or] at h
    rw [List.cons_append, fields, if_neg (Ne.symm h.1), fields_word h.2]
    simp

theorem fields_last {c : Char} : ∀ {a : List Char}, c ∉ a → ∀ acc, fields c acc a = [acc ++ a]
  | [], _, acc => by simp [fields]
  | d :: a, h, acc => by
    simp only [List.mem_cons, not_or] at h
    rw [fields, if_neg (Ne.symm h.1), fields_last h.2]
    simp

/-- Names that are separated by commas are found. -/
theorem fields_joined : ∀ (n : String) (ns : List String), (∀ m ∈ n :: ns, ',' ∉ m.toList) →
    fields ',' [] (joined "," (n :: ns)) = (n :: ns).map String.toList
  | n, [], h => by simp [joined, following, fields_last (h n (by simp))]
  | n, m :: ns, h => by
    have ih := fields_joined m ns (fun x hx => h x (by simp [hx]))
    have e : joined "," (n :: m :: ns) = n.toList ++ ',' :: joined "," (m :: ns) := by
      simp only [joined, following, List.flatMap_cons, lit_eq]
      simp [List.append_assoc]
    rw [e, fields_word (h n (by simp)), ih]
    simp

theorem joined_mem {sep : String} {c : Char} : ∀ {ns : List String}, c ∈ joined sep ns → c ∈ sep.toList ∨ ∃ n ∈ ns, c ∈ n.toList
  | [], h => by simp [joined] at h
  | n :: ns, h => by
    simp only [joined, following, List.mem_append, List.mem_flatMap, lit_eq] at h
    rcases h with h | ⟨m, hm, h | h⟩
    · exact Or.inr ⟨n, by simp, h⟩
    · exact Or.inl h
    · exact Or.inr ⟨m, by simp [hm], h⟩

/-! ### Substitution -/

/-- A word and the character behind it. -/
theorem subst_word {σ : List (List Char × List Char)} {c : Char} (hc : wordChar c = false) : ∀ {a : List Char},
    a.all wordChar = true → ∀ w rest, subst σ false w (a ++ c :: rest) =
      replace σ (w ++ a) ++ c :: subst σ (c == '"') [] rest
  | [], _, w, rest => by simp [subst, hc]
  | d :: a, h, w, rest => by
    simp only [List.all_cons, Bool.and_eq_true] at h
    rw [List.cons_append, subst, if_pos h.1, subst_word hc h.2]
    simp

/-- Inside a string literal nothing is replaced. -/
theorem subst_string {σ : List (List Char × List Char)} : ∀ {a : List Char}, '"' ∉ a → '\\' ∉ a → ∀ rest,
    subst σ true [] (a ++ rest) = a ++ subst σ true [] rest
  | [], _, _, rest => rfl
  | d :: a, h, h', rest => by
    simp only [List.mem_cons, not_or] at h h'
    have : subst σ true [] (d :: (a ++ rest)) = d :: subst σ (!(d == '"')) [] (a ++ rest) := by
      rw [subst.eq_def]
      split
      · rename_i heq; cases heq
      · rename_i heq; simp only [List.cons.injEq] at heq; exact absurd heq.1.symm (fun e => h'.1 e)
      · rename_i heq; simp only [List.cons.injEq] at heq; rw [heq.1, heq.2]
      · rename_i heq _; cases heq
    rw [List.cons_append, this]
    have hd : (d == '"') = false := by simpa using Ne.symm h.1
    rw [hd, Bool.not_false, subst_string h.2 h'.2]
    rfl

theorem takeWhile_word {a : List Char} {c : Char} {rest : List Char} (ha : a.all wordChar = true) (hc : wordChar c = false) :
    (a ++ c :: rest).takeWhile wordChar = a ∧ (a ++ c :: rest).dropWhile wordChar = c :: rest := by
  rw [List.all_eq_true] at ha
  constructor
  · rw [List.takeWhile_append_of_pos ha, List.takeWhile_cons, hc]
    simp
  · rw [List.dropWhile_append_of_pos ha, List.dropWhile_cons, hc]
    simp

theorem takeWhile_par {a : List Char} {rest : List Char} (ha : ')' ∉ a) :
    (a ++ ')' :: rest).takeWhile (fun c => !(c == ')')) = a ∧
      (a ++ ')' :: rest).dropWhile (fun c => !(c == ')')) = ')' :: rest := by
  have h : ∀ c ∈ a, (!(c == ')')) = true := by
    intro c hc
    have : c ≠ ')' := by rintro rfl; exact ha hc
    simpa using this
  constructor
  · rw [List.takeWhile_append_of_pos h, List.takeWhile_cons]
    simp
  · rw [List.dropWhile_append_of_pos h, List.dropWhile_cons]
    simp

/-- A definition with parameters. -/
theorem defineOf_call {nm : List Char} (hn : nm.all wordChar = true) {ns : List String} (hs : ∀ n ∈ ns, ident n = true)
    (body : List Char) : defineOf (lit "#define " ++ (nm ++ ('(' :: (joined "," ns ++ [')'])) ++ body)) =
      some ⟨nm, some (ns.map String.toList), body⟩ := by
  have hp : ("#define ".toList).isPrefixOf (lit "#define " ++ (nm ++ ('(' :: (joined "," ns ++ [')'])) ++ body)) = true := by
    rw [lit_eq]
    exact List.isPrefixOf_iff_prefix.2 (List.prefix_append _ _)
  have hd : (lit "#define " ++ (nm ++ ('(' :: (joined "," ns ++ [')'])) ++ body)).drop 8 =
      nm ++ '(' :: (joined "," ns ++ ')' :: body) := by
    rw [lit_eq, List.drop_append_of_le_length (by decide)]
    rw [List.drop_eq_nil_of_le (by decide)]
    simp [List.append_assoc]
  have hj : ')' ∉ joined "," ns := by
    intro h
    rcases joined_mem h with h | ⟨n, hm, h⟩
    · revert h; decide
    · exact not_mem_word (ident_word (hs n hm)).1 (by decide) h
  unfold defineOf
  rw [if_pos hp, hd]
  dsimp only
  rw [(takeWhile_word hn (by decide)).2, (takeWhile_word hn (by decide)).1]
  change some (Macro.mk nm (some (if (joined "," ns ++ ')' :: body).takeWhile (fun c => !(c == ')')) = [] then []
    else fields ',' [] ((joined "," ns ++ ')' :: body).takeWhile (fun c => !(c == ')')))))
    (((joined "," ns ++ ')' :: body).dropWhile (fun c => !(c == ')'))).drop 1)) = _
  rw [(takeWhile_par hj).1, (takeWhile_par hj).2]
  congr 2
  cases ns with
  | nil => simp [joined]
  | cons n ns =>
    rw [if_neg, fields_joined n ns]
    · intro m hm
      exact not_mem_word (ident_word (hs m hm)).1 (by decide)
    · intro h
      have := (ident_word (hs n (by simp))).2.1
      simp only [joined, List.append_eq_nil_iff] at h
      exact this h.1

/-- The substitution for a call with the given arguments. -/
def pairs (ns : List String) (args : List (List Char)) : List (List Char × List Char) := (ns.map String.toList).zip args

theorem lookup_none {ns : List String} {args : List (List Char)} {w : List Char} (h : ∀ n ∈ ns, n.toList ≠ w) :
    replace (pairs ns args) w = w := by
  have : (pairs ns args).lookup w = none := by
    rw [List.lookup_eq_none_iff]
    intro p hp
    have h1 := List.of_mem_zip hp
    rw [List.mem_map] at h1
    obtain ⟨⟨n, hn, he⟩, _⟩ := h1
    have := h n hn
    rw [he] at this
    simpa using this.symm
  rw [replace, this]
  rfl

theorem lookup_pairs : ∀ {ns : List String} {args : List (List Char)}, ns.Nodup →
    ∀ p ∈ ns.zip args, replace (pairs ns args) p.1.toList = p.2
  | [], _, _, p, hp => by simp at hp
  | n :: ns, [], _, p, hp => by simp at hp
  | n :: ns, a :: args, hd, p, hp => by
    rw [List.nodup_cons] at hd
    rw [List.zip_cons_cons, List.mem_cons] at hp
    rcases hp with rfl | hp
    · simp [replace, pairs]
    · have hm := (List.of_mem_zip hp).1
      have hne : p.1.toList ≠ n.toList := by
        intro h
        exact hd.1 (String.toList_injective h ▸ hm)
      have hbeq : (p.1.toList == n.toList) = false := by simpa using hne
      have : (pairs (n :: ns) (a :: args)).lookup p.1.toList = (pairs ns args).lookup p.1.toList := by
        simp only [pairs, List.map_cons, List.zip_cons_cons, List.lookup_cons, hbeq]
      rw [replace, this]
      exact lookup_pairs hd.2 p hp

theorem zip_flatMap {α β γ : Type} (f : α → List γ) : ∀ {a : List α} {b : List β}, a.length = b.length →
    (a.zip b).flatMap (fun p => f p.1) = a.flatMap f
  | [], [], _ => rfl
  | x :: a, y :: b, h => by simp [zip_flatMap f (by simpa using h : a.length = b.length)]

theorem zip_flatMap' {α β γ : Type} (f : β → List γ) : ∀ {a : List α} {b : List β}, a.length = b.length →
    (a.zip b).flatMap (fun p => f p.2) = b.flatMap f
  | [], [], _ => rfl
  | x :: a, y :: b, h => by simp [zip_flatMap' f (by simpa using h : a.length = b.length)]

/-! ## C56: the macros of the statements -/

/-- Names that a program can be compiled with: identifiers, the iterators different from each other. -/
structure Usable (p : Prog) : Prop where
  scat : ∀ n ∈ p.scat, ident n = true
  iters : ∀ n ∈ p.iters, ident n = true
  params : ∀ n ∈ p.params, ident n = true
  distinct : p.iters.Nodup

/-- What a statement does in a callable program: tell `hash` its number and its arguments. -/
def hashCalls (k : Nat) (args : List (List Char)) : List Char :=
  " { hash(".toList ++ (decChars (k + 1) k ++ (");".toList ++
    (args.flatMap (fun a => " hash(".toList ++ (a ++ ");".toList)) ++ " }".toList)))

/-- The macro of a statement for `-callable`. -/
def callableDef (p : Prog) (s : Nat × Nat) : Macro :=
  ⟨'S' :: decChars (s.1 + 1) s.1, some ((p.iters.take s.2).map String.toList),
    " { hash(".toList ++ (decChars (s.1 + 1) s.1 ++ (");".toList ++
      ((p.iters.take s.2).flatMap (fun n => " hash(".toList ++ (n.toList ++ ");".toList)) ++ " }".toList)))⟩

theorem intC_nat (k : Nat) : intC (k : Int) = decChars (k + 1) k := by
  unfold intC
  rw [if_neg (by omega)]
  simp

theorem digits_word (k : Nat) : (decChars (k + 1) k).all wordChar = true := by
  rw [List.all_eq_true]
  intro c hc
  exact ((dec_props (k + 1) k (by omega)).1 c hc).2

theorem defName_word (k : Nat) : (defName k).all wordChar = true := by
  rw [defName, intC_nat, List.all_cons, digits_word]
  decide

/-- No identifier is a number. -/
theorem ident_digits {s : String} (h : ident s = true) (k : Nat) : s.toList ≠ decChars (k + 1) k := by
  intro he
  have hd := dec_props (k + 1) k (by omega)
  obtain ⟨_, h2, h3⟩ := ident_word h
  cases hs : s.toList with
  | nil => exact h2 hs
  | cons c w =>
    have h4 := h3 c (by rw [hs]; rfl)
    rw [hs] at he
    have := (hd.1 c (by rw [← he]; simp)).1
    rw [h4] at this
    cases this

theorem subst_hash {σ : List (List Char × List Char)} (h0 : replace σ [] = []) (hh : replace σ "hash".toList = "hash".toList) :
    ∀ {l : List (String × List Char)}, (∀ p ∈ l, p.1.toList.all wordChar = true ∧ replace σ p.1.toList = p.2) → ∀ rest,
    subst σ false [] (l.flatMap (fun p => " hash(".toList ++ (p.1.toList ++ ");".toList)) ++ rest) =
      l.flatMap (fun p => " hash(".toList ++ (p.2 ++ ");".toList)) ++ subst σ false [] rest
  | [], _, rest => rfl
  | p :: l, h, rest => by
    obtain ⟨h1, h2⟩ := h p (by simp)
    have ih := subst_hash (l := l) h0 hh (fun q hq => h q (by simp [hq])) rest
    have e : (p :: l).flatMap (fun p => " hash(".toList ++ (p.1.toList ++ ");".toList)) ++ rest =
        [] ++ ' ' :: ("hash".toList ++ '(' :: (p.1.toList ++ ')' :: ([] ++ ';' ::
          (l.flatMap (fun p => " hash(".toList ++ (p.1.toList ++ ");".toList)) ++ rest)))) := by
      simp [List.append_assoc]
    rw [e, subst_word (by decide) (by rfl), List.append_nil, h0, show ((' ' : Char) == '"') = false from rfl,
      subst_word (by decide) (by decide), List.nil_append "hash".toList, hh, show (('(' : Char) == '"') = false from rfl,
      subst_word (by decide) h1, List.nil_append p.1.toList, h2, show ((')' : Char) == '"') = false from rfl,
      subst_word (by decide) (by rfl), List.append_nil, h0, show ((';' : Char) == '"') = false from rfl, ih]
    simp [List.append_assoc]

/-- A call of the macro of a statement gives `hash` the number of the statement and the arguments, in order,
unless an iterator is called `hash`. -/
theorem C56_callable_call (p : Prog) (hp : Usable p) (hh : "hash" ∉ p.iters) (s : Nat × Nat) (args : List (List Char))
    (hl : args.length = (p.iters.take s.2).length) : (callableDef p s).call args = some (hashCalls s.1 args) := by
  have hid : ∀ n ∈ p.iters.take s.2, ident n = true := fun n hn => hp.iters n (List.mem_of_mem_take hn)
  have hnd : (p.iters.take s.2).Nodup := hp.distinct.sublist (List.take_sublist _ _)
  generalize hns : p.iters.take s.2 = ns at *
  have hhs : "hash" ∉ ns := fun hm => hh (List.mem_of_mem_take (hns ▸ hm))
  have h0 : replace (pairs ns args) [] = [] := lookup_none fun n hn => (ident_word (hid n hn)).2.1
  have h1 : replace (pairs ns args) "hash".toList = "hash".toList :=
    lookup_none fun n hn he => hhs (String.toList_injective he ▸ hn)
  have h2 : replace (pairs ns args) (decChars (s.1 + 1) s.1) = decChars (s.1 + 1) s.1 :=
    lookup_none fun n hn => ident_digits (hid n hn) _
  unfold Macro.call callableDef
  dsimp only
  rw [hns, if_pos (by simpa using hl.symm)]
  congr 1
  change subst (pairs ns args) false [] _ = _
  have e : ∀ x : List Char, " { hash(".toList ++ (decChars (s.1 + 1) s.1 ++ (");".toList ++ x)) =
      [] ++ ' ' :: ([] ++ '{' :: ([] ++ ' ' :: ("hash".toList ++ '(' :: (decChars (s.1 + 1) s.1 ++ ')' ::
        ([] ++ ';' :: x))))) := by
    intro x
    simp
  unfold hashCalls
  rw [e, e, subst_word (by decide) (by rfl), List.append_nil, h0, show ((' ' : Char) == '"') = false from rfl,
    subst_word (by decide) (by rfl), List.append_nil, h0, show (('{' : Char) == '"') = false from rfl,
    subst_word (by decide) (by rfl), List.append_nil, h0, show ((' ' : Char) == '"') = false from rfl,
    subst_word (by decide) (by decide), List.nil_append "hash".toList, h1, show (('(' : Char) == '"') = false from rfl,
    subst_word (by decide) (digits_word _), List.nil_append (decChars _ _), h2, show ((')' : Char) == '"') = false from rfl,
    subst_word (by decide) (by rfl), List.append_nil, h0, show ((';' : Char) == '"') = false from rfl]
  rw [← zip_flatMap (fun n : String => " hash(".toList ++ (n.toList ++ ");".toList)) hl.symm,
    subst_hash h0 h1 (fun q hq => ⟨(ident_word (hid q.1 (List.of_mem_zip hq).1)).1, lookup_pairs hnd q hq⟩),
    zip_flatMap' (fun a : List Char => " hash(".toList ++ (a ++ ");".toList)) hl.symm]
  have e2 : " }".toList = [] ++ ' ' :: ([] ++ '}' :: []) := by decide
  rw [e2, subst_word (by decide) (by rfl), List.append_nil, h0, show ((' ' : Char) == '"') = false from rfl,
    subst_word (by decide) (by rfl), List.append_nil, h0, show (('}' : Char) == '"') = false from rfl]
  simp [subst, h0]

/-- The macros of every program. -/
def stdDefs : List Macro :=
  [⟨"floord".toList, some ["n".toList, "d".toList], " (((n)<0) ? -((-(n)+(d)-1)/(d)) : (n)/(d))".toList⟩,
   ⟨"ceild".toList, some ["n".toList, "d".toList], "  (((n)<0) ? -((-(n))/(d)) : ((n)+(d)-1)/(d))".toList⟩,
   ⟨"max".toList, some ["x".toList, "y".toList], "    ((x) > (y) ? (x) : (y))".toList⟩,
   ⟨"min".toList, some ["x".toList, "y".toList], "    ((x) < (y) ? (x) : (y))".toList⟩,
   ⟨"IF_TIME".toList, some ["foo".toList], " foo; ".toList⟩,
   ⟨"IF_TIME".toList, some ["foo".toList], []⟩]

/-- A text made of complete lines that define the given macros. -/
def Defs (m : List Char) (l : List Macro) : Prop := ∀ rest, defs (m ++ rest) = l ++ defs rest

theorem Defs.append {a b : List Char} {l k : List Macro} (ha : Defs a l) (hb : Defs b k) : Defs (a ++ b) (l ++ k) := by
  intro rest
  rw [List.append_assoc, ha, hb, List.append_assoc]

theorem Defs.nil : Defs [] [] := fun _ => rfl

theorem Defs.of_line {a : List Char} (h : '\n' ∉ a) {l : List Macro} (hl : (defineOf a).toList = l) : Defs (a ++ ['\n']) l := by
  intro rest
  rw [List.append_assoc, List.singleton_append, defs_line h, hl]

/-- Lines that do not start with `#`. -/
theorem Defs.plain {c : Char} {a : List Char} (hc : c ≠ '#') (h : '\n' ∉ c :: a) : Defs (c :: a ++ ['\n']) [] := by
  refine Defs.of_line h ?_
  have : ("#define ".toList).isPrefixOf (c :: a) = false := by
    change List.isPrefixOf ('#' :: "define ".toList) (c :: a) = false
    rw [List.isPrefixOf_cons₂, show ('#' == c) = false from by simpa using Ne.symm hc]
    rfl
  unfold defineOf
  rw [if_neg (by rw [this]; simp)]
  rfl

theorem Defs.lit {s : String} {m : List Char} (h : s.toList = m ++ ['\n']) {l : List Macro} (hl : defs m = l) :
    Defs (Verif.PText.lit s) l := by
  intro rest
  rw [defs_lit h, hl]

theorem Defs.flatMap {α : Type} {f : α → List Char} {g : α → Macro} : ∀ {l : List α}, (∀ x ∈ l, Defs (f x) [g x]) →
    Defs (l.flatMap f) (l.map g)
  | [], _ => Defs.nil
  | x :: l, h => by
    rw [List.flatMap_cons, List.map_cons]
    exact Defs.append (h x (by simp)) (Defs.flatMap fun y hy => h y (by simp [hy]))

theorem macros_defs : Defs macros stdDefs := by
  have e : macros = macros.dropLast ++ ['\n'] := by decide +kernel
  have e2 : defs macros.dropLast = stdDefs := by decide +kernel
  intro rest
  rw [e, List.append_assoc, List.singleton_append, defs_block, e2]

theorem joined_nl {sep : String} (hs : '\n' ∉ sep.toList) {ns : List String} (h : ∀ n ∈ ns, ident n = true) :
    '\n' ∉ joined sep ns := by
  intro hm
  rcases joined_mem hm with hm | ⟨n, hn, hm⟩
  · exact hs hm
  · exact not_mem_word (ident_word (h n hn)).1 (by decide) hm

theorem declarations_defs {ns : List String} (h : ∀ n ∈ ns, ident n = true) : Defs (declarations ns) [] := by
  have e : declarations ns = ' ' :: (" int ".toList ++ (joined ", " ns ++ [';'])) ++ ['\n'] := by
    unfold declarations
    rw [lit_eq, lit_eq]
    simp [List.append_assoc]
  rw [e]
  refine Defs.plain (by decide) ?_
  have := joined_nl (sep := ", ") (by decide) h
  simp only [List.mem_cons, List.mem_append, not_or]
  exact ⟨by decide, by decide, this, by decide, by simp⟩

theorem ownScat_mem {p : Prog} {n : String} (h : n ∈ ownScat p) : n ∈ p.scat := (List.mem_filter.1 h).1

theorem iteratorDecls_defs {p : Prog} (hp : Usable p) : Defs (iteratorDecls p) [] := by
  unfold iteratorDecls
  refine Defs.append (l := []) (k := []) ?_ ?_
  · split
    · exact Defs.nil
    · exact Defs.append (l := []) (k := []) (Defs.lit (m := "  /* Scattering iterators. */".toList) (by decide) (by decide +kernel))
        (declarations_defs fun n hn => hp.scat n (ownScat_mem hn))
  · split
    · exact Defs.nil
    · exact Defs.append (l := []) (k := []) (Defs.lit (m := "  /* Original iterators. */".toList) (by decide) (by decide +kernel))
        (declarations_defs hp.iters)

/-- The line of a macro for `-callable` defines it. -/
theorem callableMacro_defs {p : Prog} (hp : Usable p) (s : Nat × Nat) : Defs (callableMacro p s) [callableDef p s] := by
  have hid : ∀ n ∈ p.iters.take s.2, ident n = true := fun n hn => hp.iters n (List.mem_of_mem_take hn)
  have e : callableMacro p s = (lit "#define " ++ (defName s.1 ++ ('(' :: (joined "," (p.iters.take s.2) ++ [')'])) ++
      (callableDef p s).body)) ++ ['\n'] := by
    unfold callableMacro macroHead callableDef
    simp only [lit_eq, intC_nat]
    simp [List.append_assoc]
  rw [e]
  refine Defs.of_line ?_ ?_
  · have h1 := joined_nl (sep := ",") (by decide) hid
    have h2 := not_mem_word (defName_word s.1) (d := '\n') (by decide)
    have h3 := not_mem_word (digits_word s.1) (d := '\n') (by decide)
    have h4 : ∀ n ∈ p.iters.take s.2, '\n' ∉ n.toList := fun n hn => not_mem_word (ident_word (hid n hn)).1 (by decide)
    simp only [callableDef, lit_eq, List.mem_append, List.mem_cons, List.mem_flatMap, not_or, not_exists, not_and]
    refine ⟨by decide, ⟨h2, by decide, h1, by decide, by simp⟩, by decide, h3, by decide, ?_, by decide⟩
    exact fun n hn => ⟨by decide, h4 n hn, by decide⟩
  · rw [defineOf_call (defName_word s.1) hid]
    simp only [Option.toList_some, callableDef, defName, intC_nat]

/-- The parameters of the function of a callable program. -/
def testParams (p : Prog) : List Char :=
  match p.params with | [] => [] | n :: ns => lit "int " ++ (n.toList ++ following ", int " ns)

theorem testParams_mem {p : Prog} (hp : Usable p) {c : Char} (h : c ∈ testParams p) :
    c ∈ "int , ".toList ∨ wordChar c = true := by
  unfold testParams at h
  have hw : ∀ n ∈ p.params, ∀ c ∈ n.toList, wordChar c = true := fun n hn => List.all_eq_true.1 (ident_word (hp.params n hn)).1
  generalize p.params = l at *
  cases l with
  | nil => cases h
  | cons n ns =>
    simp only [following, lit_eq, List.mem_append, List.mem_flatMap] at h
    rcases h with h | h | ⟨m, hm, h | h⟩
    · left; revert h; simp; tauto
    · exact Or.inr (hw n (by simp) c h)
    · left; revert h; simp; tauto
    · exact Or.inr (hw m (by simp [hm]) c h)

/-- The definitions in force where the code of a callable program starts: the macros of every program, `S0`, and
one macro for every statement. -/
theorem C56_callable_defs (p : Prog) (hp : Usable p) : Defs (callablePreamble p)
    (stdDefs ++ (⟨"S0".toList, none, " { hash(0); }".toList⟩ :: p.stmts.map (callableDef p))) := by
  unfold callablePreamble
  refine Defs.append (l := []) (Defs.lit (m := "extern void hash(int);\n".toList) (by decide) (by decide +kernel))
    (Defs.append macros_defs (Defs.append (l := [_]) (Defs.lit (m := "#define S0 { hash(0); }".toList) (by decide) (by decide +kernel)) ?_))
  have h : Defs (lit "\nvoid test(" ++ (testParams p ++ (lit ")\n{\n" ++ iteratorDecls p))) [] := by
    have e : lit "\nvoid test(" ++ (testParams p ++ (lit ")\n{\n" ++ iteratorDecls p)) =
        ([] ++ ['\n']) ++ (('v' :: ("oid test(".toList ++ (testParams p ++ ")".toList)) ++ ['\n']) ++
          (('{' :: [] ++ ['\n']) ++ iteratorDecls p)) := by
      simp [lit_eq, List.append_assoc]
    rw [e]
    refine Defs.append (l := []) (k := []) (Defs.of_line (by simp) (by decide)) (Defs.append (l := []) (k := [])
      (Defs.plain (by decide) ?_) (Defs.append (l := []) (k := []) (Defs.plain (by decide) (by decide)) (iteratorDecls_defs hp)))
    have : '\n' ∉ testParams p := by
      intro hm
      rcases testParams_mem hp hm with h | h
      · revert h; decide
      · revert h; decide
    simp only [List.mem_cons, List.mem_append, not_or]
    exact ⟨by decide, by decide, this, by decide⟩
  have := Defs.append (Defs.flatMap (g := callableDef p) fun s (_ : s ∈ p.stmts) => callableMacro_defs hp s) h
  rwa [List.append_nil] at this

/-! ### Compilable programs -/

/-- What a statement does in a compilable program: count itself, and print its name and its arguments. -/
def printCalls (k : Nat) (args : List (List Char)) : List Char :=
  " {total++;".toList ++ ((match args with
    | [] => []
    | a :: as => " printf(\"S".toList ++ (decChars (k + 1) k ++ ((a :: as).flatMap (fun _ => " %d".toList) ++
        ("\\n\"".toList ++ ((a :: as).flatMap (fun b => ',' :: b) ++ ");".toList))))) ++ "}".toList)

/-- The macro of a statement for `-compilable`. -/
def compilableDef (p : Prog) (s : Nat × Nat) : Macro :=
  ⟨'S' :: decChars (s.1 + 1) s.1, some ((p.iters.take s.2).map String.toList),
    printCalls s.1 ((p.iters.take s.2).map String.toList)⟩

theorem subst_commas {σ : List (List Char × List Char)} :
    ∀ {l : List (String × List Char)}, (∀ p ∈ l, p.1.toList.all wordChar = true ∧ replace σ p.1.toList = p.2) →
    ∀ {w w' : List Char}, w.all wordChar = true → replace σ w = w' → ∀ {c : Char}, wordChar c = false → ∀ rest,
    subst σ false [] (w ++ (l.flatMap (fun p => ',' :: p.1.toList) ++ c :: rest)) =
      w' ++ (l.flatMap (fun p => ',' :: p.2) ++ c :: subst σ (c == '"') [] rest)
  | [], _, w, w', hw, hr, c, hc, rest => by
    simp only [List.flatMap_nil, List.nil_append]
    rw [subst_word hc hw, List.nil_append, hr]
  | p :: l, h, w, w', hw, hr, c, hc, rest => by
    obtain ⟨h1, h2⟩ := h p (by simp)
    have ih := subst_commas (l := l) (fun q hq => h q (by simp [hq])) h1 h2 hc rest
    simp only [List.flatMap_cons, List.cons_append, List.append_assoc]
    rw [subst_word (by decide) hw, List.nil_append, hr, show ((',' : Char) == '"') = false from rfl, ih]

/-- A call of the macro of a statement counts it and prints its name and its arguments, in order, unless an
iterator is called `total` or `printf`. -/
theorem C56_compilable_call (p : Prog) (hp : Usable p) (ht : "total" ∉ p.iters) (hf : "printf" ∉ p.iters) (s : Nat × Nat)
    (args : List (List Char)) (hl : args.length = (p.iters.take s.2).length) :
    (compilableDef p s).call args = some (printCalls s.1 args) := by
  have hid : ∀ n ∈ p.iters.take s.2, ident n = true := fun n hn => hp.iters n (List.mem_of_mem_take hn)
  have hnd : (p.iters.take s.2).Nodup := hp.distinct.sublist (List.take_sublist _ _)
  unfold Macro.call compilableDef
  dsimp only
  generalize hns : p.iters.take s.2 = ns at *
  have hts : "total" ∉ ns := fun hm => ht (List.mem_of_mem_take (hns ▸ hm))
  have hfs : "printf" ∉ ns := fun hm => hf (List.mem_of_mem_take (hns ▸ hm))
  have h0 : replace (pairs ns args) [] = [] := lookup_none fun n hn => (ident_word (hid n hn)).2.1
  have h1 : replace (pairs ns args) "total".toList = "total".toList :=
    lookup_none fun n hn he => hts (String.toList_injective he ▸ hn)
  have h2 : replace (pairs ns args) "printf".toList = "printf".toList :=
    lookup_none fun n hn he => hfs (String.toList_injective he ▸ hn)
  rw [if_pos (by simpa using hl.symm)]
  congr 1
  change subst (pairs ns args) false [] _ = _
  have e : ∀ x : List Char, " {total++;".toList ++ x =
      [] ++ ' ' :: ([] ++ '{' :: ("total".toList ++ '+' :: ([] ++ '+' :: ([] ++ ';' :: x)))) := by
    intro x
    simp
  unfold printCalls
  rw [e, e, subst_word (by decide) (by rfl), List.append_nil, h0, show ((' ' : Char) == '"') = false from rfl,
    subst_word (by decide) (by rfl), List.append_nil, h0, show (('{' : Char) == '"') = false from rfl,
    subst_word (by decide) (by decide), List.nil_append "total".toList, h1, show (('+' : Char) == '"') = false from rfl,
    subst_word (by decide) (by rfl), List.append_nil, h0, show (('+' : Char) == '"') = false from rfl,
    subst_word (by decide) (by rfl), List.append_nil, h0, show ((';' : Char) == '"') = false from rfl]
  have hend : subst (pairs ns args) false [] "}".toList = "}".toList := by
    have : "}".toList = [] ++ '}' :: [] := rfl
    rw [this, subst_word (by decide) (by rfl), List.append_nil, h0, show (('}' : Char) == '"') = false from rfl]
    simp [subst, h0]
  cases ns with
  | nil =>
    have : args = [] := by simpa using hl
    subst this
    simp only [List.map_nil, List.nil_append]
    rw [hend]
  | cons n ns =>
    cases args with
    | nil => simp at hl
    | cons a args =>
      have hl' : ns.length = args.length := by simpa using hl.symm
      have hz : ∀ q ∈ (n :: ns).zip (a :: args), q.1.toList.all wordChar = true ∧
          replace (pairs (n :: ns) (a :: args)) q.1.toList = q.2 :=
        fun q hq => ⟨(ident_word (hid q.1 (List.of_mem_zip hq).1)).1, lookup_pairs hnd q hq⟩
      have hfm : ((n :: ns).map String.toList).flatMap (fun _ => " %d".toList) = (a :: args).flatMap (fun _ => " %d".toList) := by
        rw [← zip_flatMap' (fun _ => " %d".toList) (a := (n :: ns).map String.toList) (b := a :: args) (by simpa using hl'),
          ← zip_flatMap (fun _ => " %d".toList) (a := (n :: ns).map String.toList) (b := a :: args) (by simpa using hl')]
      have hcs : ((n :: ns).map String.toList).flatMap (fun b => ',' :: b) =
          ((n :: ns).zip (a :: args)).flatMap (fun q => ',' :: q.1.toList) := by
        rw [List.flatMap_map, ← zip_flatMap (fun n : String => ',' :: n.toList) hl.symm]
      have hcs' : (a :: args).flatMap (fun b => ',' :: b) =
          ((n :: ns).zip (a :: args)).flatMap (fun q => ',' :: q.2) := by
        rw [← zip_flatMap' (fun b : List Char => ',' :: b) hl.symm]
      generalize hF : (a :: args).flatMap (fun _ => " %d".toList) = F at *
      have hFm : ∀ c ∈ F, c ∈ " %d".toList := by
        rw [← hF]
        intro c hc
        rw [List.mem_flatMap] at hc
        exact hc.choose_spec.2
      have hstr : '"' ∉ 'S' :: (decChars (s.1 + 1) s.1 ++ F) ∧ '\\' ∉ 'S' :: (decChars (s.1 + 1) s.1 ++ F) := by
        have hd1 := not_mem_word (digits_word s.1) (d := '"') (by decide)
        have hd2 := not_mem_word (digits_word s.1) (d := '\\') (by decide)
        simp only [List.mem_cons, List.mem_append, not_or]
        exact ⟨⟨by decide, hd1, fun h => by have := hFm _ h; revert this; decide⟩,
          ⟨by decide, hd2, fun h => by have := hFm _ h; revert this; decide⟩⟩
      simp only [List.map_cons] at hfm hcs ⊢
      rw [hfm, hcs, hcs', hF]
      generalize (n :: ns).zip (a :: args) = Z at *
      have e3 : ∀ X : List Char, (" printf(\"S".toList ++ (decChars (s.1 + 1) s.1 ++ (F ++ ("\\n\"".toList ++ X)))) =
          [] ++ ' ' :: ("printf".toList ++ '(' :: ([] ++ '"' :: (('S' :: (decChars (s.1 + 1) s.1 ++ F)) ++ '\\' :: 'n' :: '"' :: X))) := by
        intro X
        simp [List.append_assoc]
      have e4 : ∀ X : List Char, subst (pairs (n :: ns) (a :: args)) true [] ('\\' :: 'n' :: '"' :: X) =
          '\\' :: 'n' :: '"' :: subst (pairs (n :: ns) (a :: args)) false [] X := by
        intro X
        rfl
      have e5 := subst_commas hz (w := []) (w' := []) rfl h0 (c := ')') (by decide) ([] ++ ';' :: "}".toList)
      rw [show ((')' : Char) == '"') = false from rfl, subst_word (by decide) (by rfl), List.append_nil, h0,
        show ((';' : Char) == '"') = false from rfl, hend] at e5
      simp only [List.append_assoc]
      rw [e3, e3, subst_word (by decide) (by rfl), List.append_nil, h0, show ((' ' : Char) == '"') = false from rfl,
        subst_word (by decide) (by decide), List.nil_append "printf".toList, h2, show (('(' : Char) == '"') = false from rfl,
        subst_word (by decide) (by rfl), List.append_nil, h0, show (('"' : Char) == '"') = true from rfl,
        subst_string hstr.1 hstr.2, e4]
      have e6 : ");".toList ++ "}".toList = ')' :: ([] ++ ';' :: "}".toList) := rfl
      rw [e6]
      simp only [List.nil_append] at e5 ⊢
      rw [e5]

/-- The line of a macro for `-compilable` defines it. -/
theorem compilableMacro_defs {p : Prog} (hp : Usable p) (s : Nat × Nat) : Defs (compilableMacro p s) [compilableDef p s] := by
  have hid : ∀ n ∈ p.iters.take s.2, ident n = true := fun n hn => hp.iters n (List.mem_of_mem_take hn)
  have hbody : compilableMacro p s = (lit "#define " ++ (defName s.1 ++ ('(' :: (joined "," (p.iters.take s.2) ++ [')'])) ++
      (compilableDef p s).body)) ++ ['\n'] := by
    unfold compilableMacro macroHead compilableDef printCalls
    generalize p.iters.take s.2 = ns at *
    cases ns with
    | nil => simp [lit_eq, List.append_assoc]
    | cons n ns =>
      have h1 : ∀ l : List String, l.flatMap (fun _ => " %d".toList) = (l.map String.toList).flatMap (fun _ => " %d".toList) := by
        intro l
        rw [List.flatMap_map]
      have h2 : following "," ns = (ns.map String.toList).flatMap (fun b => ',' :: b) := by
        rw [List.flatMap_map, following]
        simp only [lit_eq]
        rfl
      simp only [lit_eq, defName, intC_nat, h1, h2]
      simp [List.append_assoc]
  rw [hbody]
  refine Defs.of_line ?_ ?_
  · have h1 := joined_nl (sep := ",") (by decide) hid
    have h2 := not_mem_word (defName_word s.1) (d := '\n') (by decide)
    have h3 := not_mem_word (digits_word s.1) (d := '\n') (by decide)
    have h4 : ∀ n ∈ p.iters.take s.2, '\n' ∉ n.toList := fun n hn => not_mem_word (ident_word (hid n hn)).1 (by decide)
    have h5 : '\n' ∉ (compilableDef p s).body := by
      unfold compilableDef printCalls
      generalize p.iters.take s.2 = ns at *
      cases ns with
      | nil => simp
      | cons n ns =>
        simp only [List.map_cons, List.mem_append, List.mem_flatMap, not_or, not_exists, not_and]
        refine ⟨by decide, ⟨by decide, h3, fun _ _ => by decide, by decide, ?_, by decide⟩, by decide⟩
        intro x hx
        rw [← List.map_cons, List.mem_map] at hx
        obtain ⟨m, hm, rfl⟩ := hx
        simp only [List.mem_cons, not_or]
        exact ⟨by decide, h4 m (by simpa using hm)⟩
    simp only [lit_eq, List.mem_append, List.mem_cons, not_or]
    exact ⟨by decide, ⟨h2, by decide, h1, by decide, by simp⟩, h5⟩
  · rw [defineOf_call (defName_word s.1) hid]
    simp only [Option.toList_some, compilableDef, defName, intC_nat]

/-- A definition without parameters. -/
theorem defineOf_plain {nm : List Char} (hn : nm.all wordChar = true) (body : List Char) :
    defineOf (lit "#define " ++ (nm ++ ' ' :: body)) = some ⟨nm, none, ' ' :: body⟩ := by
  have hp : ("#define ".toList).isPrefixOf (lit "#define " ++ (nm ++ ' ' :: body)) = true := by
    rw [lit_eq]
    exact List.isPrefixOf_iff_prefix.2 (List.prefix_append _ _)
  have hd : (lit "#define " ++ (nm ++ ' ' :: body)).drop 8 = nm ++ ' ' :: body := by
    rw [lit_eq, List.drop_append_of_le_length (by decide)]
    rw [List.drop_eq_nil_of_le (by decide)]
    simp
  unfold defineOf
  rw [if_pos hp, hd]
  dsimp only
  rw [(takeWhile_word hn (by decide)).2, (takeWhile_word hn (by decide)).1]
  rfl

/-- The macro for the value of a parameter. -/
def parValDef (v : Int) (i : Nat) : Macro := ⟨"PARVAL".toList ++ intC ((i : Int) + 1), none, ' ' :: intC v⟩

theorem intC_mem {v : Int} {c : Char} (h : c ∈ intC v) : c = '-' ∨ wordChar c = true := by
  unfold intC at h
  have hp := (dec_props (v.natAbs + 1) v.natAbs (by omega)).1
  split at h
  · rcases List.mem_cons.1 h with h | h
    · exact Or.inl h
    · exact Or.inr (hp c h).2
  · exact Or.inr (hp c h).2

theorem parVals_defs (p : Prog) (v : Int) : Defs (parVals p v) ((List.range p.params.length).map (parValDef v)) := by
  unfold parVals
  refine Defs.flatMap fun i _ => ?_
  have e : lit "#define PARVAL" ++ (intC ((i : Int) + 1) ++ (' ' :: (intC v ++ ['\n']))) =
      (lit "#define " ++ (("PARVAL".toList ++ intC ((i : Int) + 1)) ++ ' ' :: intC v)) ++ ['\n'] := by
    simp [lit_eq, List.append_assoc]
  have hw : ("PARVAL".toList ++ intC ((i : Int) + 1)).all wordChar = true := by
    have h := intC_nat (i + 1)
    push_cast at h
    rw [List.all_append, h, digits_word]
    decide
  rw [e]
  refine Defs.of_line ?_ ?_
  · have h1 := not_mem_word hw (d := '\n') (by decide)
    have h2 : '\n' ∉ intC v := by
      intro h
      rcases intC_mem h with h | h <;> revert h <;> decide
    simp only [lit_eq, List.mem_append (s := _ ++ _), List.mem_append, List.mem_cons, not_or] at h1 ⊢
    exact ⟨by decide, h1, by decide, h2⟩
  · rw [defineOf_plain hw]
    rfl

theorem parDecls_defs {p : Prog} (hp : Usable p) : Defs (parDecls p) [] := by
  unfold parDecls
  have hw : ∀ n ∈ p.params, '\n' ∉ n.toList := fun n hn => not_mem_word (ident_word (hp.params n hn)).1 (by decide)
  generalize p.params = l at *
  cases l with
  | nil => exact Defs.nil
  | cons n ns =>
    have e : lit "  /* Parameters. */\n  int " ++ (n.toList ++ (lit "=PARVAL1" ++
      (ns.zipIdx.flatMap (fun m => lit ", " ++ (m.1.toList ++ (lit "=PARVAL" ++ intC ((m.2 : Int) + 2)))) ++
        lit ";\n"))) = ((' ' :: " /* Parameters. */".toList) ++ ['\n']) ++ ((' ' :: (" int ".toList ++ (n.toList ++ ("=PARVAL1".toList ++
      (ns.zipIdx.flatMap (fun m => lit ", " ++ (m.1.toList ++ (lit "=PARVAL" ++ intC ((m.2 : Int) + 2)))) ++
        ";".toList))))) ++ ['\n']) := by
      generalize ns.zipIdx.flatMap (fun m => lit ", " ++ (m.1.toList ++ (lit "=PARVAL" ++ intC ((m.2 : Int) + 2)))) = x
      simp [lit_eq, List.append_assoc]
    dsimp only
    rw [e]
    refine Defs.append (l := []) (k := []) (Defs.plain (by decide) (by decide)) (Defs.plain (by decide) ?_)
    simp only [List.mem_cons, List.mem_append, List.mem_flatMap, not_or, not_exists, not_and]
    refine ⟨by decide, by decide, hw n (by simp), by decide, ?_, by decide⟩
    intro m hm
    have hm' : m.1 ∈ ns := (List.mem_zipIdx' (x := m.1) (i := m.2) hm).2 ▸ List.getElem_mem _
    refine ⟨by simp [lit_eq], hw m.1 (by simp [hm']), by simp [lit_eq], ?_⟩
    intro h
    rcases intC_mem h with h | h <;> revert h <;> decide

/-- The definitions in force where the code of a compilable program starts: the values of the parameters, the macros
of every program, and one macro for every statement. -/
theorem C56_compilable_defs (p : Prog) (hp : Usable p) (v : Int) : Defs (compilablePreamble p v)
    ((List.range p.params.length).map (parValDef v) ++ (stdDefs ++ p.stmts.map (compilableDef p))) := by
  unfold compilablePreamble
  have hmain : Defs (lit "\nint main() {\n" ++ (iteratorDecls p ++ (parDecls p ++ lit "  int total=0;\n\n"))) [] :=
    Defs.append (l := []) (k := []) (Defs.lit (m := "\nint main() {".toList) (by decide) (by decide +kernel))
      (Defs.append (l := []) (k := []) (iteratorDecls_defs hp) (Defs.append (l := []) (k := []) (parDecls_defs hp)
        (Defs.lit (m := "  int total=0;\n".toList) (by decide) (by decide +kernel))))
  have hst := Defs.append (Defs.flatMap (g := compilableDef p) fun s (_ : s ∈ p.stmts) => compilableMacro_defs hp s) hmain
  rw [List.append_nil] at hst
  exact Defs.append (l := []) (Defs.lit (m := "/* DON'T FORGET TO USE -lm OPTION TO COMPILE. */\n".toList) (by decide +kernel) (by decide +kernel))
    (Defs.append (l := []) (Defs.lit (m := "/* Useful headers. */\n#include <stdio.h>\n#include <stdlib.h>\n#include <math.h>\n".toList)
        (by decide +kernel) (by decide +kernel))
      (Defs.append (l := []) (Defs.lit (m := "/* Parameter value. */".toList) (by decide) (by decide +kernel))
        (Defs.append (parVals_defs p v) (Defs.append macros_defs
          (Defs.append (l := []) (Defs.lit (m := "/* Statement macros (please set). */".toList) (by decide +kernel) (by decide +kernel)) hst)))))

/-! ### One macro per statement -/

theorem dec_inj {a b : Nat} (h : decChars (a + 1) a = decChars (b + 1) b) : a = b := by
  have h1 := (dec_props (a + 1) a (by omega)).2.1
  have h2 := (dec_props (b + 1) b (by omega)).2.1
  rw [h, h2] at h1
  exact h1.symm

/-- Among the macros of statements with different numbers, each name belongs to one. -/
theorem filter_name {g : Nat × Nat → Macro} (hg : ∀ s, (g s).name = 'S' :: decChars (s.1 + 1) s.1) :
    ∀ {l : List (Nat × Nat)}, (l.map Prod.fst).Nodup → ∀ s ∈ l,
    (l.map g).filter (fun m => m.name == 'S' :: decChars (s.1 + 1) s.1) = [g s]
  | [], _, s, hs => by simp at hs
  | x :: l, hd, s, hs => by
    rw [List.map_cons, List.nodup_cons] at hd
    rw [List.map_cons, List.filter_cons]
    rcases List.mem_cons.1 hs with rfl | hs
    · rw [if_pos (by simp [hg])]
      congr 1
      rw [List.filter_eq_nil_iff]
      intro m hm
      obtain ⟨y, hy, rfl⟩ := List.mem_map.1 hm
      rw [hg]
      intro h
      have h := dec_inj (by simpa using h)
      exact hd.1 (List.mem_map.2 ⟨y, hy, h⟩)
    · rw [if_neg, filter_name hg hd.2 s hs]
      rw [hg]
      intro h
      have h := dec_inj (by simpa using h)
      exact hd.1 (List.mem_map.2 ⟨s, hs, h.symm⟩)

/-- The text of a program up to the code. -/
def head (l : Lang) (m : Mode) (from_ : List Char) (p : Prog) : List Char := comment l from_ ++ preamble l m p

/-- The text of a program is its head, the code, and the postamble. -/
theorem programText_head {f : Cfg} {v : Int} {fr : List Char} {p : Prog} {body : List PStmt} {t : List Char}
    (h : programText f v fr p body = some t) : ∃ c, pprint f (indentation f.lang ⟨v, f.callable⟩) body = some c ∧
      t = head f.lang ⟨v, f.callable⟩ fr p ++ (c ++ postamble f.lang ⟨v, f.callable⟩) := by
  unfold programText at h
  dsimp only at h
  obtain ⟨c, hc, rfl⟩ := Option.map_eq_some_iff.1 h
  exact ⟨c, hc, by simp [head, List.append_assoc]⟩

theorem comment_defs {fr : List Char} (hf : '\n' ∉ fr) : Defs (comment .c fr) [] := by
  have e : comment .c fr = ('/' :: ("* ".toList ++ (fr ++ " */".toList))) ++ ['\n'] := by
    simp [comment, lit_eq, List.append_assoc]
  rw [e]
  refine Defs.plain (by decide) ?_
  simp only [List.mem_cons, List.mem_append, not_or]
  exact ⟨by decide, by decide, hf, by decide⟩

/-- In front of the code of a callable program, exactly one macro has the name of each statement, and using it
means to call `hash` with the number of the statement and then with its arguments, in order. -/
theorem C56_callable (p : Prog) (hp : Usable p) (hh : "hash" ∉ p.iters) (hn : (p.stmts.map Prod.fst).Nodup)
    (h1 : ∀ s ∈ p.stmts, s.1 ≠ 0) (fr : List Char) (hf : '\n' ∉ fr) (rest : List Char) (s : Nat × Nat) (hs : s ∈ p.stmts) :
    ∃ ds m, defs (head .c ⟨0, true⟩ fr p ++ rest) = ds ++ defs rest ∧
      ds.filter (fun m => m.name == 'S' :: decChars (s.1 + 1) s.1) = [m] ∧
      ∀ args, args.length = (p.iters.take s.2).length → m.call args = some (hashCalls s.1 args) := by
  refine ⟨_, callableDef p s, Defs.append (comment_defs hf) (C56_callable_defs p hp) rest, ?_,
    fun args hl => C56_callable_call p hp hh s args hl⟩
  have h0 : ('S' :: decChars (s.1 + 1) s.1 : List Char) ≠ "S0".toList := by
    intro h
    exact h1 s hs (dec_inj (a := s.1) (b := 0) (List.cons.inj h).2)
  rw [List.nil_append, List.filter_append, List.filter_cons, if_neg (by simpa using Ne.symm h0),
    filter_name (fun _ => rfl) hn s hs]
  have : stdDefs.filter (fun m => m.name == 'S' :: decChars (s.1 + 1) s.1) = [] := by
    rw [List.filter_eq_nil_iff]
    intro m hm h
    have hc : ∀ m ∈ stdDefs, m.name.head? ≠ some 'S' := by decide
    exact hc m hm (by rw [show m.name = _ from by simpa using h]; rfl)
  rw [this, List.nil_append]

/-- In front of the code of a compilable program, exactly one macro has the name of each statement, and using it
means to count the statement and to print its name and arguments, in order. -/
theorem C56_compilable (p : Prog) (hp : Usable p) (ht : "total" ∉ p.iters) (hpf : "printf" ∉ p.iters)
    (hn : (p.stmts.map Prod.fst).Nodup) (v : Int) (hv : v ≠ 0) (c : Bool) (fr : List Char) (hf : '\n' ∉ fr) (rest : List Char)
    (s : Nat × Nat) (hs : s ∈ p.stmts) :
    ∃ ds m, defs (head .c ⟨v, c⟩ fr p ++ rest) = ds ++ defs rest ∧
      ds.filter (fun m => m.name == 'S' :: decChars (s.1 + 1) s.1) = [m] ∧
      ∀ args, args.length = (p.iters.take s.2).length → m.call args = some (printCalls s.1 args) := by
  refine ⟨(List.range p.params.length).map (parValDef v) ++ (stdDefs ++ p.stmts.map (compilableDef p)), compilableDef p s, ?_, ?_,
    fun args hl => C56_compilable_call p hp ht hpf s args hl⟩
  · have : preamble .c ⟨v, c⟩ p = compilablePreamble p v := by
      unfold preamble
      simp only [if_pos hv]
    unfold head
    rw [this]
    exact Defs.append (comment_defs hf) (C56_compilable_defs p hp v) rest
  rw [List.filter_append, List.filter_append, filter_name (fun _ => rfl) hn s hs]
  have : stdDefs.filter (fun m => m.name == 'S' :: decChars (s.1 + 1) s.1) = [] := by
    rw [List.filter_eq_nil_iff]
    intro m hm h
    have hc : ∀ m ∈ stdDefs, m.name.head? ≠ some 'S' := by decide
    exact hc m hm (by rw [show m.name = _ from by simpa using h]; rfl)
  have h2 : ((List.range p.params.length).map (parValDef v)).filter (fun m => m.name == 'S' :: decChars (s.1 + 1) s.1) = [] := by
    rw [List.filter_eq_nil_iff]
    intro m hm h
    obtain ⟨i, _, rfl⟩ := List.mem_map.1 hm
    have h : "PARVAL".toList ++ intC ((i : Int) + 1) = 'S' :: decChars (s.1 + 1) s.1 := by simpa [parValDef] using h
    exact absurd (List.cons.inj h).1 (by decide)
  rw [this, h2, List.nil_append, List.nil_append]

/-! ## C57: the declarations -/

/-- The variables declared by a line: `int` and names, each possibly with a value; or the head of the function
with its parameters. -/
def declsOf (line : List Char) : List (List Char) :=
  if "  int ".toList.isPrefixOf line then
    (fields ',' [] ((line.drop 6).takeWhile (fun c => !(c == ';')))).map
      fun d => (d.dropWhile (fun c => c == ' ')).takeWhile wordChar
  else if "void test(".toList.isPrefixOf line then
    if (line.drop 10).takeWhile (fun c => !(c == ')')) = [] then []
    else (fields ',' [] ((line.drop 10).takeWhile (fun c => !(c == ')')))).map
      fun d => ((d.dropWhile (fun c => c == ' ')).drop 4).takeWhile wordChar
  else []

/-- The variables declared by a text. -/
def declared (cs : List Char) : List (List Char) := (linesOf [] cs).flatMap declsOf

/-- A text made of complete lines that declare the given variables. -/
def Decls (m : List Char) (l : List (List Char)) : Prop := ∀ rest, declared (m ++ rest) = l ++ declared rest

theorem Decls.append {a b : List Char} {l k : List (List Char)} (ha : Decls a l) (hb : Decls b k) : Decls (a ++ b) (l ++ k) := by
  intro rest
  rw [List.append_assoc, ha, hb, List.append_assoc]

theorem Decls.nil : Decls [] [] := fun _ => rfl

theorem Decls.of_line {a : List Char} (h : '\n' ∉ a) {l : List (List Char)} (hl : declsOf a = l) : Decls (a ++ ['\n']) l := by
  intro rest
  unfold declared
  rw [List.append_assoc, List.singleton_append, linesOf_line h, List.nil_append, List.flatMap_cons, hl]

theorem Decls.lit {s : String} {m : List Char} (h : s.toList = m ++ ['\n']) {l : List (List Char)} (hl : declared m = l) :
    Decls (Verif.PText.lit s) l := by
  intro rest
  unfold declared at hl ⊢
  rw [lit_eq, h, List.append_assoc, List.singleton_append, linesOf_block, List.flatMap_append, hl]

/-- A line that starts neither a declaration nor a function. -/
theorem Decls.plain {c : Char} {a : List Char} (hc : c ≠ ' ') (hv : c ≠ 'v') (h : '\n' ∉ c :: a) : Decls (c :: a ++ ['\n']) [] := by
  refine Decls.of_line h ?_
  have h1 : ("  int ".toList).isPrefixOf (c :: a) = false := by
    change List.isPrefixOf (' ' :: " int ".toList) (c :: a) = false
    rw [List.isPrefixOf_cons₂, show (' ' == c) = false from by simpa using Ne.symm hc]
    rfl
  have h2 : ("void test(".toList).isPrefixOf (c :: a) = false := by
    change List.isPrefixOf ('v' :: "oid test(".toList) (c :: a) = false
    rw [List.isPrefixOf_cons₂, show ('v' == c) = false from by simpa using Ne.symm hv]
    rfl
  unfold declsOf
  rw [if_neg (by rw [h1]; simp), if_neg (by rw [h2]; simp)]

theorem Decls.flatMap {α : Type} {f : α → List Char} : ∀ {l : List α}, (∀ x ∈ l, Decls (f x) []) → Decls (l.flatMap f) []
  | [], _ => Decls.nil
  | x :: l, h => by
    rw [List.flatMap_cons]
    exact Decls.append (l := []) (k := []) (h x (by simp)) (Decls.flatMap fun y hy => h y (by simp [hy]))

/-- Fields behind commas and spaces. -/
theorem fields_commas : ∀ (a : List Char) (l : List (List Char)), ',' ∉ a → (∀ x ∈ l, ',' ∉ x) →
    fields ',' [] (a ++ l.flatMap (fun x => ", ".toList ++ x)) = a :: l.map (fun x => ' ' :: x)
  | a, [], ha, _ => by simp [fields_last ha]
  | a, x :: l, ha, h => by
    have hx : ',' ∉ ' ' :: x := by
      simp only [List.mem_cons, not_or]
      exact ⟨by decide, h x (by simp)⟩
    have ih := fields_commas (' ' :: x) l hx (fun y hy => h y (by simp [hy]))
    have e : a ++ (x :: l).flatMap (fun x => ", ".toList ++ x) = a ++ ',' :: ((' ' :: x) ++ l.flatMap (fun x => ", ".toList ++ x)) := by
      simp
    rw [e, fields_word ha, ih]
    simp

theorem dropWhile_ident {n : String} (h : ident n = true) (r : List Char) :
    (n.toList ++ r).dropWhile (fun c => c == ' ') = n.toList ++ r := by
  obtain ⟨h1, h2, _⟩ := ident_word h
  cases hn : n.toList with
  | nil => exact absurd hn h2
  | cons c w =>
    rw [hn] at h1
    simp only [List.all_cons, Bool.and_eq_true] at h1
    rw [List.cons_append, List.dropWhile_cons, if_neg]
    intro hc
    exact word_ne h1.1 (d := ' ') (by decide) (by simpa using hc)

theorem takeWhile_all {a : List Char} (h : a.all wordChar = true) : a.takeWhile wordChar = a := by
  have := List.takeWhile_append_of_pos (l₂ := []) (List.all_eq_true.1 h)
  simpa using this

/-- A line that declares names with something behind each that does not belong to it. -/
theorem decls_int {n : String} {x : List Char} {l : List (String × List Char)} (hi : ∀ m ∈ (n, x) :: l, ident m.1 = true)
    (hx : ∀ m ∈ (n, x) :: l, m.2 = [] ∨ ∃ q, m.2 = '=' :: q)
    (hc : ∀ m ∈ (n, x) :: l, ',' ∉ m.2 ∧ ';' ∉ m.2 ∧ '\n' ∉ m.2) :
    Decls (Verif.PText.lit "  int " ++ (n.toList ++ (x ++ (l.flatMap (fun m => Verif.PText.lit ", " ++ (m.1.toList ++ m.2)) ++
      Verif.PText.lit ";\n")))) (((n, x) :: l).map fun m => m.1.toList) := by
  have e : Verif.PText.lit "  int " ++ (n.toList ++ (x ++ (l.flatMap (fun m => Verif.PText.lit ", " ++ (m.1.toList ++ m.2)) ++
      Verif.PText.lit ";\n"))) = ("  int ".toList ++ (((n.toList ++ x) ++ (l.map (fun m => m.1.toList ++ m.2)).flatMap (fun y => ", ".toList ++ y)) ++
        ';' :: [])) ++ ['\n'] := by
    rw [List.flatMap_map]
    simp [lit_eq, List.append_assoc]
  have hw : ∀ m ∈ (n, x) :: l, ∀ d, wordChar d = false → d ∉ m.1.toList := fun m hm d hd => not_mem_word (ident_word (hi m hm)).1 hd
  have hbig : ∀ d, wordChar d = false → d ∉ ", ".toList → (∀ m ∈ (n, x) :: l, d ∉ m.2) →
      d ∉ (n.toList ++ x) ++ (l.map (fun m => m.1.toList ++ m.2)).flatMap (fun y => ", ".toList ++ y) := by
    intro d hd hs h2
    simp only [List.flatMap_map, List.mem_append, List.mem_flatMap, not_or, not_exists, not_and]
    refine ⟨⟨hw (n, x) (by simp) d hd, h2 _ (List.mem_cons_self ..)⟩, fun m hm => ⟨hs, hw m (by simp [hm]) d hd, h2 m (by simp [hm])⟩⟩
  have hsemi := hbig ';' (by decide) (by decide) fun m hm => (hc m hm).2.1
  have hnl := hbig '\n' (by decide) (by decide) fun m hm => (hc m hm).2.2
  rw [e]
  refine Decls.of_line ?_ ?_
  · rw [List.mem_append, List.mem_append]
    simp only [not_or]
    exact ⟨by decide, hnl, by decide⟩
  · generalize hA : (n.toList ++ x) ++ (l.map (fun m => m.1.toList ++ m.2)).flatMap (fun y => ", ".toList ++ y) = A at *
    unfold declsOf
    rw [if_pos (List.isPrefixOf_iff_prefix.2 (List.prefix_append _ _))]
    have hd : ("  int ".toList ++ (A ++ ';' :: [])).drop 6 = A ++ ';' :: [] := by
      rw [List.drop_append_of_le_length (by decide), List.drop_eq_nil_of_le (by decide)]
      rfl
    have ht : (A ++ ';' :: []).takeWhile (fun c => !(c == ';')) = A := by
      have h : ∀ c ∈ A, (!(c == ';')) = true := by
        intro c hm
        have : c ≠ ';' := by rintro rfl; exact hsemi hm
        simpa using this
      rw [List.takeWhile_append_of_pos h, List.takeWhile_cons]
      simp
    rw [hd, ht, ← hA, fields_commas]
    · rw [List.map_cons, List.map_map, List.map_map, List.map_cons]
      have key : ∀ m ∈ (n, x) :: l, ((m.1.toList ++ m.2).dropWhile (fun c => c == ' ')).takeWhile wordChar = m.1.toList := by
        intro m hm
        rw [dropWhile_ident (hi m hm)]
        rcases hx m hm with h | ⟨q, h⟩
        · rw [h, List.append_nil, takeWhile_all (ident_word (hi m hm)).1]
        · rw [h, (takeWhile_word (ident_word (hi m hm)).1 (by decide)).1]
      rw [key (n, x) (by simp)]
      congr 1
      refine List.map_congr_left fun m hm => ?_
      exact key m (by simp [hm])
    · rw [List.mem_append, not_or]
      exact ⟨hw (n, x) (by simp) ',' (by decide), (hc _ (List.mem_cons_self ..)).1⟩
    · intro y hy
      obtain ⟨m, hm, rfl⟩ := List.mem_map.1 hy
      rw [List.mem_append, not_or]
      exact ⟨hw m (by simp [hm]) _ (by decide), (hc m (by simp [hm])).1⟩

theorem declarations_decls {ns : List String} (hne : ns ≠ []) (h : ∀ n ∈ ns, ident n = true) :
    Decls (declarations ns) (ns.map String.toList) := by
  cases ns with
  | nil => exact absurd rfl hne
  | cons n ns =>
    have := decls_int (n := n) (x := []) (l := ns.map fun m => (m, []))
      (by
        intro m hm
        rcases List.mem_cons.1 hm with rfl | hm
        · exact h n (by simp)
        · obtain ⟨k, hk, rfl⟩ := List.mem_map.1 hm
          exact h k (by simp [hk]))
      (by
        intro m hm
        left
        rcases List.mem_cons.1 hm with rfl | hm
        · rfl
        · obtain ⟨k, hk, rfl⟩ := List.mem_map.1 hm
          rfl)
      (by
        intro m hm
        have : m.2 = [] := by
          rcases List.mem_cons.1 hm with rfl | hm
          · rfl
          · obtain ⟨k, hk, rfl⟩ := List.mem_map.1 hm
            rfl
        rw [this]
        simp)
    simp only [List.map_cons, List.map_map, List.flatMap_map, List.append_nil, List.nil_append] at this
    unfold declarations joined following
    rw [List.append_assoc]
    exact this

/-- The iterators and the scattering dimensions are declared, those that are both once. -/
theorem iteratorDecls_decls {p : Prog} (hp : Usable p) :
    Decls (iteratorDecls p) ((ownScat p).map String.toList ++ p.iters.map String.toList) := by
  unfold iteratorDecls
  refine Decls.append ?_ ?_
  · split
    · rename_i h
      rw [List.isEmpty_iff.1 h]
      exact Decls.nil
    · rename_i h
      exact Decls.append (l := []) (Decls.lit (m := "  /* Scattering iterators. */".toList) (by decide) (by decide +kernel))
        (declarations_decls (fun he => h (by rw [he]; rfl)) fun n hn => hp.scat n (ownScat_mem hn))
  · split
    · rename_i h
      rw [List.isEmpty_iff.1 h]
      exact Decls.nil
    · rename_i h
      exact Decls.append (l := []) (Decls.lit (m := "  /* Original iterators. */".toList) (by decide) (by decide +kernel))
        (declarations_decls (fun he => h (by rw [he]; rfl)) hp.iters)

/-- The parameters of the function are declared. -/
theorem test_decls {p : Prog} (hp : Usable p) :
    Decls (("void test(".toList ++ (testParams p ++ ")".toList)) ++ ['\n']) (p.params.map String.toList) := by
  have hno : ∀ d, wordChar d = false → d ∉ "int , ".toList → d ∉ testParams p := by
    intro d hd hs hm
    rcases testParams_mem hp hm with h | h
    · exact hs h
    · rw [hd] at h
      cases h
  have hpar := hno ')' (by decide) (by decide)
  have hnl := hno '\n' (by decide) (by decide)
  refine Decls.of_line ?_ ?_
  · simp only [List.mem_append, not_or]
    exact ⟨by decide, hnl, by decide⟩
  · unfold declsOf
    have hne : ("  int ".toList).isPrefixOf ("void test(".toList ++ (testParams p ++ ")".toList)) = false := rfl
    have hd : ("void test(".toList ++ (testParams p ++ ")".toList)).drop 10 = testParams p ++ ')' :: [] := by
      rw [List.drop_append_of_le_length (by decide), List.drop_eq_nil_of_le (by decide)]
      rfl
    rw [if_neg (by rw [hne]; simp), if_pos (List.isPrefixOf_iff_prefix.2 (List.prefix_append _ _)), hd, (takeWhile_par hpar).1]
    have hi := hp.params
    unfold testParams
    generalize p.params = l at *
    cases l with
    | nil => rfl
    | cons n ns =>
      have e : lit "int " ++ (n.toList ++ following ", int " ns) =
          ("int ".toList ++ n.toList) ++ (ns.map fun m => "int ".toList ++ m.toList).flatMap (fun y => ", ".toList ++ y) := by
        rw [List.flatMap_map, following, lit_eq, List.append_assoc]
        congr 2
        refine congrArg (fun f => ns.flatMap f) (funext fun m => ?_)
        rw [lit_eq]
        simp
      dsimp only
      have hne : lit "int " ++ (n.toList ++ following ", int " ns) ≠ [] := by simp [lit_eq]
      rw [if_neg hne, e, fields_commas, List.map_cons, List.map_map, List.map_map, List.map_cons]
      · have key : ∀ m ∈ n :: ns, ((("int ".toList ++ m.toList).dropWhile (fun c => c == ' ')).drop 4).takeWhile wordChar = m.toList := by
          intro m hm
          exact takeWhile_all (ident_word (hi m hm)).1
        rw [key n (by simp)]
        congr 1
        exact List.map_congr_left fun m hm => key m (by simp [hm])
      · rw [List.mem_append, not_or]
        exact ⟨by decide, not_mem_word (ident_word (hi n (by simp))).1 (by decide)⟩
      · intro y hy
        obtain ⟨m, hm, rfl⟩ := List.mem_map.1 hy
        rw [List.mem_append, not_or]
        exact ⟨by decide, not_mem_word (ident_word (hi m (by simp [hm]))).1 (by decide)⟩

theorem macros_decls : Decls macros [] := by
  have e : macros = macros.dropLast ++ ['\n'] := by decide +kernel
  have e2 : declared macros.dropLast = [] := by decide +kernel
  intro rest
  unfold declared at e2 ⊢
  rw [e, List.append_assoc, List.singleton_append, linesOf_block, List.flatMap_append, e2]

/-- Lines that define a macro declare nothing. -/
theorem define_decls {x : List Char} (h : '\n' ∉ x) : Decls (lit "#define " ++ (x ++ ['\n'])) [] := by
  have e : lit "#define " ++ (x ++ ['\n']) = ('#' :: ("define ".toList ++ x)) ++ ['\n'] := by
    simp [lit_eq]
  rw [e]
  refine Decls.plain (by decide) (by decide) ?_
  simp only [List.mem_cons, List.mem_append, not_or]
  exact ⟨by decide, by decide, h⟩

/-- A text that is one line. -/
def OneLine (x : List Char) : Prop := ∃ y, x = y ++ ['\n'] ∧ '\n' ∉ y

theorem oneLine_lit {s : String} {m : List Char} (h : s.toList = m ++ ['\n']) (hm : '\n' ∉ m) : OneLine (lit s) := ⟨m, by rw [lit_eq, h], hm⟩

theorem OneLine.append {a b : List Char} (ha : '\n' ∉ a) (hb : OneLine b) : OneLine (a ++ b) := by
  obtain ⟨y, rfl, hy⟩ := hb
  exact ⟨a ++ y, by simp, by simp [ha, hy]⟩

theorem OneLine.cons {c : Char} {b : List Char} (ha : c ≠ '\n') (hb : OneLine b) : OneLine (c :: b) :=
  OneLine.append (a := [c]) (by simpa using Ne.symm ha) hb

theorem decls_oneLine {x : List Char} (h : OneLine x) : Decls (lit "#define " ++ x) [] := by
  obtain ⟨y, rfl, hy⟩ := h
  exact define_decls hy

theorem macroHead_append (p : Prog) (s : Nat × Nat) (b : List Char) :
    macroHead p s ++ b = lit "#define " ++ ((defName s.1 ++ ('(' :: (joined "," (p.iters.take s.2) ++ [')']))) ++ b) := by
  simp [macroHead, List.append_assoc]

theorem nl_lit {s : String} (h : '\n' ∉ s.toList) : '\n' ∉ lit s := by rwa [lit_eq]

theorem nl_flatMap {α : Type} {f : α → List Char} {l : List α} (h : ∀ x ∈ l, '\n' ∉ f x) : '\n' ∉ l.flatMap f := by
  intro hm
  obtain ⟨x, hx, hm⟩ := List.mem_flatMap.1 hm
  exact h x hx hm

theorem nl_append {a b : List Char} (ha : '\n' ∉ a) (hb : '\n' ∉ b) : '\n' ∉ a ++ b := by simp [ha, hb]

theorem nl_ident {n : String} (h : ident n = true) : '\n' ∉ n.toList := not_mem_word (ident_word h).1 (by decide)

theorem nl_intC (v : Int) : '\n' ∉ intC v := by
  intro h
  rcases intC_mem h with h | h <;> revert h <;> decide

theorem nl_head {p : Prog} (hp : Usable p) (s : Nat × Nat) :
    '\n' ∉ defName s.1 ++ ('(' :: (joined "," (p.iters.take s.2) ++ [')'])) := by
  refine nl_append (not_mem_word (defName_word s.1) (by decide)) ?_
  simp only [List.mem_cons, not_or]
  exact ⟨by decide, nl_append (joined_nl (by decide) fun n hn => hp.iters n (List.mem_of_mem_take hn)) (by decide)⟩

theorem callableMacro_decls {p : Prog} (hp : Usable p) (s : Nat × Nat) : Decls (callableMacro p s) [] := by
  unfold callableMacro
  rw [macroHead_append]
  refine decls_oneLine (OneLine.append (nl_head hp s) (OneLine.append (nl_lit (by decide)) (OneLine.append (nl_intC _)
    (OneLine.append (nl_lit (by decide)) (OneLine.append (nl_flatMap fun n hn => ?_) (oneLine_lit (m := " }".toList) (by decide) (by decide)))))))
  exact nl_append (nl_lit (by decide)) (nl_append (nl_ident (hp.iters n (List.mem_of_mem_take hn))) (nl_lit (by decide)))

theorem compilableMacro_decls {p : Prog} (hp : Usable p) (s : Nat × Nat) : Decls (compilableMacro p s) [] := by
  unfold compilableMacro
  rw [macroHead_append]
  refine decls_oneLine (OneLine.append (nl_head hp s) (OneLine.append (nl_lit (by decide)) (OneLine.append ?_
    (oneLine_lit (m := "}".toList) (by decide) (by decide)))))
  have hi : ∀ n ∈ p.iters.take s.2, ident n = true := fun n hn => hp.iters n (List.mem_of_mem_take hn)
  generalize p.iters.take s.2 = l at *
  cases l with
  | nil => simp
  | cons n ns =>
    refine nl_append (nl_lit (by decide)) (nl_append (not_mem_word (defName_word s.1) (by decide)) (nl_append (nl_lit (by decide))
      (nl_append (nl_flatMap fun _ _ => nl_lit (by decide)) (nl_append (nl_lit (by decide)) (nl_append (nl_ident (hi n (by simp)))
        (nl_append ?_ (nl_lit (by decide))))))))
    exact nl_flatMap fun m hm => nl_append (nl_lit (by decide)) (nl_ident (hi m (by simp [hm])))

theorem parVals_decls (p : Prog) (v : Int) : Decls (parVals p v) [] := by
  unfold parVals
  refine Decls.flatMap fun i _ => ?_
  have e : lit "#define PARVAL" ++ (intC ((i : Int) + 1) ++ (' ' :: (intC v ++ ['\n']))) =
      lit "#define " ++ ("PARVAL".toList ++ (intC ((i : Int) + 1) ++ (' ' :: (intC v ++ ['\n'])))) := by
    simp [lit_eq]
  rw [e]
  exact decls_oneLine (OneLine.append (by decide) (OneLine.append (nl_intC _) (OneLine.cons (by decide)
    ⟨intC v, rfl, nl_intC v⟩)))

theorem parDecls_decls {p : Prog} (hp : Usable p) : Decls (parDecls p) (p.params.map String.toList) := by
  have hi := hp.params
  unfold parDecls
  generalize p.params = l at *
  cases l with
  | nil => exact Decls.nil
  | cons n ns =>
    dsimp only
    have e : lit "  /* Parameters. */\n  int " ++ (n.toList ++ (lit "=PARVAL1" ++
      (ns.zipIdx.flatMap (fun m => lit ", " ++ (m.1.toList ++ (lit "=PARVAL" ++ intC ((m.2 : Int) + 2)))) ++
        lit ";\n"))) = lit "  /* Parameters. */\n" ++ (lit "  int " ++ (n.toList ++ ("=PARVAL1".toList ++
      ((ns.zipIdx.map fun m => (m.1, "=PARVAL".toList ++ intC ((m.2 : Int) + 2))).flatMap (fun m => lit ", " ++ (m.1.toList ++ m.2)) ++
        lit ";\n")))) := by
      rw [List.flatMap_map]
      simp [lit_eq, List.append_assoc]
    rw [e]
    have hall : ∀ m ∈ (n, "=PARVAL1".toList) :: (ns.zipIdx.map fun m => (m.1, "=PARVAL".toList ++ intC ((m.2 : Int) + 2))),
        ident m.1 = true ∧ (∃ q, m.2 = '=' :: q) ∧ ∀ d, d ∈ ",;\n".toList → d ∉ m.2 := by
      intro m hm
      rcases List.mem_cons.1 hm with rfl | hm
      · exact ⟨hi n (by simp), ⟨_, rfl⟩, by dsimp only; decide⟩
      · obtain ⟨k, hk, rfl⟩ := List.mem_map.1 hm
        have hk' : k.1 ∈ ns := (List.mem_zipIdx' (x := k.1) (i := k.2) hk).2 ▸ List.getElem_mem _
        refine ⟨hi k.1 (by simp [hk']), ⟨_, rfl⟩, fun d hd => ?_⟩
        rw [List.mem_append, not_or]
        refine ⟨by revert d; decide, fun h => ?_⟩
        rcases intC_mem h with h | h
        · subst h; revert hd; decide
        · revert h
          have : ∀ d ∈ ",;\n".toList, ¬ wordChar d = true := by decide
          exact this d hd
    have := Decls.append (l := []) (Decls.lit (m := "  /* Parameters. */".toList) (s := "  /* Parameters. */\n") (by decide) (by decide +kernel))
      (decls_int (fun m hm => (hall m hm).1) (fun m hm => Or.inr (hall m hm).2.1)
        (fun m hm => ⟨(hall m hm).2.2 ',' (by decide), (hall m hm).2.2 ';' (by decide), (hall m hm).2.2 '\n' (by decide)⟩))
    have e2 : List.map (fun m : String × List Char => m.1.toList) ((n, "=PARVAL1".toList) :: (ns.zipIdx.map fun m => (m.1, "=PARVAL".toList ++ intC ((m.2 : Int) + 2)))) =
        (n :: ns).map String.toList := by
      rw [List.map_cons, List.map_map, List.map_cons]
      congr 1
      have : ns.map String.toList = (ns.zipIdx.map Prod.fst).map String.toList := by rw [List.zipIdx_map_fst]
      rw [this, List.map_map]
      rfl
    rw [e2, List.nil_append] at this
    exact this

theorem comment_decls {fr : List Char} (hf : '\n' ∉ fr) : Decls (comment .c fr) [] := by
  have e : comment .c fr = ('/' :: ("* ".toList ++ (fr ++ " */".toList))) ++ ['\n'] := by
    simp [comment, lit_eq, List.append_assoc]
  rw [e]
  refine Decls.plain (by decide) (by decide) ?_
  simp only [List.mem_cons, List.mem_append, not_or]
  exact ⟨by decide, by decide, hf, by decide⟩

/-- What the head of a callable program declares. -/
theorem C57_callable (p : Prog) (hp : Usable p) (fr : List Char) (hf : '\n' ∉ fr) : Decls (head .c ⟨0, true⟩ fr p)
    (p.params.map String.toList ++ ((ownScat p).map String.toList ++ p.iters.map String.toList)) := by
  refine Decls.append (l := []) (comment_decls hf) ?_
  change Decls (callablePreamble p) _
  unfold callablePreamble
  have e : lit "\nvoid test(" ++ (testParams p ++ (lit ")\n{\n" ++ iteratorDecls p)) =
      ([] ++ ['\n']) ++ ((("void test(".toList ++ (testParams p ++ ")".toList)) ++ ['\n']) ++
        (('{' :: [] ++ ['\n']) ++ iteratorDecls p)) := by
    simp [lit_eq, List.append_assoc]
  refine Decls.append (l := []) (Decls.lit (m := "extern void hash(int);\n".toList) (by decide) (by decide +kernel))
    (Decls.append (l := []) macros_decls (Decls.append (l := []) (Decls.lit (m := "#define S0 { hash(0); }".toList) (by decide) (by decide +kernel))
      (Decls.append (l := []) (Decls.flatMap fun s _ => callableMacro_decls hp s) ?_)))
  change Decls (lit "\nvoid test(" ++ (testParams p ++ (lit ")\n{\n" ++ iteratorDecls p))) _
  rw [e]
  exact Decls.append (l := []) (Decls.of_line (by simp) (by decide)) (Decls.append (test_decls hp)
    (Decls.append (l := []) (Decls.plain (by decide) (by decide) (by decide)) (iteratorDecls_decls hp)))

/-- What the head of a compilable program declares. -/
theorem C57_compilable (p : Prog) (hp : Usable p) (v : Int) (hv : v ≠ 0) (c : Bool) (fr : List Char) (hf : '\n' ∉ fr) :
    Decls (head .c ⟨v, c⟩ fr p) (((ownScat p).map String.toList ++ p.iters.map String.toList) ++
      (p.params.map String.toList ++ ["total".toList])) := by
  refine Decls.append (l := []) (comment_decls hf) ?_
  have : preamble .c ⟨v, c⟩ p = compilablePreamble p v := by
    unfold preamble
    simp only [if_pos hv]
  rw [this]
  unfold compilablePreamble
  exact Decls.append (l := []) (Decls.lit (m := "/* DON'T FORGET TO USE -lm OPTION TO COMPILE. */\n".toList) (by decide +kernel) (by decide +kernel))
    (Decls.append (l := []) (Decls.lit (m := "/* Useful headers. */\n#include <stdio.h>\n#include <stdlib.h>\n#include <math.h>\n".toList)
        (by decide +kernel) (by decide +kernel))
      (Decls.append (l := []) (Decls.lit (m := "/* Parameter value. */".toList) (by decide) (by decide +kernel))
        (Decls.append (l := []) (parVals_decls p v) (Decls.append (l := []) macros_decls
          (Decls.append (l := []) (Decls.lit (m := "/* Statement macros (please set). */".toList) (by decide +kernel) (by decide +kernel))
            (Decls.append (l := []) (Decls.flatMap fun s _ => compilableMacro_decls hp s)
              (Decls.append (l := []) (Decls.lit (m := "\nint main() {".toList) (by decide) (by decide +kernel))
                (Decls.append (iteratorDecls_decls hp) (Decls.append (parDecls_decls hp)
                  (Decls.lit (m := "  int total=0;\n".toList) (by decide) (by decide +kernel)))))))))))

/-- The names of a program as the construction of the clast sees them: the scattering dimensions and behind them
the iterators in one table, and the parameters. -/
structure Table (p : Prog) (nm : Verif.ClastGen.Names) : Prop where
  iter : ∀ i (h : i < (p.scat ++ p.iters).length), nm.at_ i = (p.scat ++ p.iters)[i]
  nPar : nm.nPar = p.params.length
  param : ∀ j (h : j < p.params.length), nm.param j = p.params[j]

theorem ownScat_or {p : Prog} {n : String} (h : n ∈ p.scat ++ p.iters) : n ∈ ownScat p ++ p.iters := by
  rw [List.mem_append] at h ⊢
  by_cases hi : n ∈ p.iters
  · exact Or.inr hi
  · rcases h with h | h
    · exact Or.inl (List.mem_filter.2 ⟨h, by simpa using hi⟩)
    · exact absurd h hi

open Verif.Clast Verif.ClastGen Verif.ClastNames Verif.Props.ClastNames Verif.Props.ClastExec Verif.IntOps

/-- Every variable that the generated code reads or sets is declared by the head of a callable program and by the
head of a compilable program, if no constraint involves two existentials. -/
theorem C57_declared_partial (p : Prog) (hp : Usable p) (cx : Ctx) (ht : Table p cx.nm) (hs : ∀ l, (cx.sort l).Perm l)
    (hg : ∀ l, (cx.gsort l).Perm l) (hi : IslNames cx (p.scat ++ p.iters).length) (icmp : Int → Int → Int)
    (loops : List Loop) (hl : TreesIn cx.nm (p.scat ++ p.iters).length 0 loops) (ss : List Stmt)
    (h : clastCreate cx icmp loops = some ss) (fr : List Char) (hf : '\n' ∉ fr) (rest : List Char)
    (x : String) (hx : x ∈ readsS ss ∨ x ∈ setsS ss) (m : Mode) (hm : m.compilable ≠ 0 ∨ m.callable = true) :
    x.toList ∈ declared (head .c m fr p ++ rest) := by
  obtain ⟨h1, h2⟩ := C47_names_partial cx _ hs hg hi icmp loops hl ss h
  have hx : x ∈ ownScat p ++ p.iters ∨ x ∈ p.params := by
    have hit : ∀ {y}, IsIter cx.nm (p.scat ++ p.iters).length y → y ∈ ownScat p ++ p.iters := by
      rintro y ⟨i, hi, rfl⟩
      rw [ht.iter i hi]
      exact ownScat_or (List.getElem_mem hi)
    rcases hx with hx | hx
    · rcases h1 x hx with hx | ⟨j, hj, rfl⟩
      · exact Or.inl (hit hx)
      · rw [ht.nPar] at hj
        rw [ht.param j hj]
        exact Or.inr (List.getElem_mem hj)
    · exact Or.inl (hit (h2 x hx))
  have key : x.toList ∈ (ownScat p).map String.toList ++ p.iters.map String.toList ∨ x.toList ∈ p.params.map String.toList := by
    rcases hx with hx | hx
    · rw [← List.map_append]
      exact Or.inl (List.mem_map_of_mem hx)
    · exact Or.inr (List.mem_map_of_mem hx)
  obtain ⟨v, c⟩ := m
  by_cases hv : v = 0
  · subst hv
    have hc : c = true := by simpa using hm
    subst hc
    rw [C57_callable p hp fr hf rest, List.mem_append, List.mem_append]
    tauto
  · rw [C57_compilable p hp v hv c fr hf rest, List.mem_append, List.mem_append, List.mem_append (t := ["total".toList])]
    tauto

theorem toList_nodup {l : List String} (h : l.Nodup) : (l.map String.toList).Nodup := h.map fun _ _ h => String.toList_injective h

/-- Nothing is declared twice by a program whose names are different; a scattering dimension may have the name
of an iterator. -/
theorem C57_once (p : Prog) (hp : Usable p) (hs : p.scat.Nodup) (hq : p.params.Nodup)
    (hd : ∀ n ∈ p.params, n ∉ p.scat ++ p.iters) (fr : List Char) (hf : '\n' ∉ fr) :
    (declared (head .c ⟨0, true⟩ fr p)).Nodup ∧ ∀ v c, v ≠ 0 → "total" ∉ p.scat ++ p.iters → "total" ∉ p.params →
      (declared (head .c ⟨v, c⟩ fr p)).Nodup := by
  have hown : (ownScat p ++ p.iters).Nodup := by
    refine List.nodup_append.2 ⟨hs.sublist List.filter_sublist, hp.distinct, ?_⟩
    intro a ha b hb hab
    subst hab
    have := (List.mem_filter.1 ha).2
    simp [hb] at this
  have hmem : ∀ n ∈ ownScat p ++ p.iters, n ∈ p.scat ++ p.iters := by
    intro n hn
    rw [List.mem_append] at hn ⊢
    exact hn.imp ownScat_mem id
  have hnil : ∀ l, declared [] = l → l = [] := by
    rintro l rfl
    rfl
  constructor
  · have := C57_callable p hp fr hf []
    rw [List.append_nil, show declared [] = [] from rfl, List.append_nil] at this
    rw [this, ← List.map_append, ← List.map_append]
    refine toList_nodup (List.nodup_append.2 ⟨hq, hown, ?_⟩)
    intro a ha b hb hab
    subst hab
    exact hd a ha (hmem a hb)
  · intro v c hv h1 h2
    have := C57_compilable p hp v hv c fr hf []
    rw [List.append_nil, show declared [] = [] from rfl, List.append_nil] at this
    rw [this, ← List.map_append, show ["total".toList] = ["total"].map String.toList from rfl, ← List.map_append, ← List.map_append]
    refine toList_nodup (List.nodup_append.2 ⟨hown, List.nodup_append.2 ⟨hq, by simp, ?_⟩, ?_⟩)
    · intro a ha b hb hab
      rw [List.mem_singleton] at hb
      exact h2 (hb ▸ hab ▸ ha)
    · intro a ha b hb hab
      subst hab
      rcases List.mem_append.1 hb with hb | hb
      · exact hd a hb (hmem a ha)
      · rw [List.mem_singleton] at hb
        exact h1 (hb ▸ hmem a ha)

/-! ## Examples -/

/-- Two statements with the iterators `i` and `ii`, a scattering dimension `c1`, and the parameter `N`. -/
def exP : Prog := ⟨["c1", "i"], ["i", "ii"], ["N"], [(1, 2), (2, 1)]⟩

theorem exP_usable : Usable exP := ⟨by decide, by decide, by decide, by decide⟩

example := C56_callable exP exP_usable (by decide) (by decide) (by decide) "Generated.".toList (by decide) [] (1, 2) (by decide)
example := C56_compilable exP exP_usable (by decide) (by decide) (by decide) 10 (by decide) false "Generated.".toList (by decide) [] (2, 1) (by decide)
example := C57_once exP exP_usable (by decide) (by decide) (by decide) "Generated.".toList (by decide)

example : (callableDef exP (1, 2)).call ["i+1".toList, "max(i,N)".toList] =
    some " { hash(1); hash(i+1); hash(max(i,N)); }".toList := by decide +kernel
example : (compilableDef exP (1, 2)).call ["i+1".toList, "max(i,N)".toList] =
    some " {total++; printf(\"S1 %d %d\\n\",i+1,max(i,N));}".toList := by decide +kernel
example : declared (head .c ⟨0, true⟩ [] exP) = ["N".toList, "c1".toList, "i".toList, "ii".toList] := by decide +kernel
example : declared (head .c ⟨7, true⟩ [] exP) = ["c1".toList, "i".toList, "ii".toList, "N".toList, "total".toList] := by decide +kernel

/-- The names of the example of C25. -/
def exP25 : Prog := ⟨[], ["i", "ii"], ["N"], [(7, 2)]⟩

theorem exP25_table : Table exP25 exC.nm where
  iter := by
    intro i h
    have h : i < 2 := h
    obtain rfl | rfl : i = 0 ∨ i = 1 := by omega
    · show exC.nm.at_ 0 = "i"
      decide
    · show exC.nm.at_ 1 = "ii"
      decide
  nPar := rfl
  param := by
    intro j h
    have h : j < 1 := h
    obtain rfl : j = 0 := by omega
    rfl

example (ss : List Stmt) (h : clastCreate exC gmpCmp exTree = some ss) :=
  C57_declared_partial exP25 ⟨by decide, by decide, by decide, by decide⟩ exC exP25_table (fun l => List.Perm.refl l)
    (fun l => List.Perm.refl l) exC_isl gmpCmp exTree exTree_in ss h [] (by decide) []

/-! ## What is missing is false -/

/-- Named statements are called by their names in compilable programs, but the macros are called `S1`, `S2`, …:
nothing defines what is called. -/
theorem C56_named : programText ⟨.c, false, fun _ => some "foo", fun _ => none⟩ 1 [] ⟨[], ["i"], [], [(1, 1)]⟩
      [.root, .user 1 [(none, .term 1 (.name "i"))]] =
        some (head .c ⟨1, false⟩ [] ⟨[], ["i"], [], [(1, 1)]⟩ ++ ("  foo(i);\n".toList ++ postamble .c ⟨1, false⟩)) ∧
    ∀ m ∈ defs (head .c ⟨1, false⟩ [] ⟨[], ["i"], [], [(1, 1)]⟩), m.name ≠ "foo".toList := by
  decide +kernel

/-- With both options, an empty program is the statement `S0`, which only callable programs define. -/
theorem C56_empty : programText ⟨.c, true, fun _ => none, fun _ => none⟩ 1 [] ⟨[], [], [], []⟩ [.root] =
      some (head .c ⟨1, true⟩ [] ⟨[], [], [], []⟩ ++ ("  S0\n".toList ++ postamble .c ⟨1, true⟩)) ∧
    ∀ m ∈ defs (head .c ⟨1, true⟩ [] ⟨[], [], [], []⟩), m.name ≠ "S0".toList := by
  decide +kernel

/-- An iterator called `hash` takes the place of the function in the macros. -/
theorem C56_hash : (callableDef ⟨[], ["hash"], [], [(1, 1)]⟩ (1, 1)).call ["5".toList] = some " { 5(1); 5(5); }".toList := by
  decide +kernel

/-- An iterator called `total` is declared twice. -/
theorem C57_total : declared (head .c ⟨1, false⟩ [] ⟨[], ["total"], [], [(1, 1)]⟩) = ["total".toList, "total".toList] := by
  decide +kernel

end Verif.Props.ProgText
