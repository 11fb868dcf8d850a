import Verif.Model.Input
import Verif.Props.Matrix
import Verif.Props.UnionDomain

/-!
# C60: input files

The files that are read are described by their lines, the numbers and the words in them; the texts of
domains and scatterings are those isl reads.
-/

namespace Verif.Props.Input
open Verif.Options Verif.Matrix Verif.Names Verif.UnionDomain Verif.Input
open Verif.Props.Matrix Verif.Props.UnionDomain

variable {R : Type}

/-! ## Specification -/

/-- A line that begins with the number `k`, maybe after white space. -/
def Number (l : Str) (k : Int) : Prop :=
  ∃ sp t, l = sp ++ printInt k ++ t ∧ (∀ c ∈ sp, isspace c = true) ∧ (∀ c, t.head? = some c → isdigit c = false) ∧
    - 2 ^ 31 ≤ k ∧ k < 2 ^ 31

/-- A line that does not begin with a number: it is blank, or its first visible character is neither a
    digit nor a sign. -/
def Silent (l : Str) : Prop :=
  ∀ c, (l.dropWhile isspace).head? = some c → isdigit c = false ∧ c ≠ '-' ∧ c ≠ '+'

/-- Lines with a name option and, if it is not 0, a line with names.  Lines before the option may be
    anything that does not begin with a number; lines before the names may be blank or comments. -/
inductive NamesSec (nb : Int) : List Str → Option (List Str) → Prop
  | off {pre : List Str} {opt : Str} {k : Int} : (∀ l ∈ pre, GoodLine l ∧ Silent l) → GoodLine opt → Number opt k →
      nb = 0 ∨ k = 0 → NamesSec nb (pre ++ [opt]) none
  | on {pre cs : List Str} {opt w : Str} {k : Int} {ns extra : List Str} :
      (∀ l ∈ pre, GoodLine l ∧ Silent l) → GoodLine opt → Number opt k → k ≠ 0 →
      (∀ l ∈ cs, GoodLine l ∧ isData l = false) → GoodLine w → isData w = true → words w = ns ++ extra →
      (∀ n ∈ ns, n.head? ≠ some '#' ∧ n.length < 50) → 0 < nb → (ns.length : Int) = nb →
      NamesSec nb (pre ++ opt :: (cs ++ [w])) (some ns)

/-- Blank lines and comments, then a line with something in it. -/
inductive DataSec (P : Str → Prop) : List Str → Prop
  | mk {pre : List Str} {l : Str} : (∀ l ∈ pre, GoodLine l ∧ isData l = false) → GoodLine l → isData l = true → P l →
      DataSec P (pre ++ [l])

/-- Three numbers. -/
def Three (l : Str) : Prop :=
  ∃ a b c : Int, ∃ s1 s2 s3 t, l = s1 ++ printInt a ++ (s2 ++ printInt b ++ (s3 ++ printInt c ++ t)) ∧
    s2 ≠ [] ∧ s3 ≠ [] ∧ (∀ x ∈ s1 ++ s2 ++ s3, isspace x = true)

/-- isl reads the relation `r` from the text `t`, whatever follows. -/
def Parses (o : Isl R) (t : Str) (r : R) : Prop := ∀ rest, o.rd (t ++ rest) = some (r, rest)

/-- The text of a set with parameters in the last dimensions or marked as parameters. -/
def ParsesDom (o : Isl R) (nb : Nat) (t : Str) (d : R) : Prop :=
  ∃ r, Parses o t r ∧ if o.np r = nb then d = r else o.toParam r ((o.nout r : Int) - nb) nb = some d

/-- The text of the domains, each followed by three numbers. -/
inductive DomText (o : Isl R) (nb : Nat) : List R → Str → Prop
  | nil : DomText o nb [] []
  | cons {d : R} {t : Str} {ls : List Str} {ds : List R} {f : Str} : ParsesDom o nb t d → DataSec Three ls →
      DomText o nb ds f → DomText o nb (d :: ds) (t ++ (file ls ++ f))

/-- The text of a scattering of a domain: a relation of its iterators, or all dimensions in a row, the
    scattering dimensions before the iterators before the parameters. -/
def ParsesScat (o : Isl R) (d : R) (t : Str) (s : R) : Prop :=
  ∃ r r', Parses o t r ∧
    (if o.np r = o.np d then r' = r else o.toParam r ((o.nout r : Int) - o.np d) (o.np d) = some r') ∧
    if o.nin r' = o.nout d then s = r' else o.toIn r' ((o.nout r' : Int) - o.nout d) (o.nout d) = some s

/-- The texts of the scatterings. -/
inductive ScatText (o : Isl R) : List R → List R → Str → Prop
  | nil : ScatText o [] [] []
  | cons {d s : R} {t : Str} {ds ss : List R} {f : Str} : ParsesScat o d t s → ScatText o ds ss f →
      ScatText o (d :: ds) (s :: ss) (t ++ f)

/-- The number of scatterings, the scatterings and the names of the scattering dimensions (`last`: the
    file ends behind the names, without the end of the line). -/
inductive ScatSec (o : Isl R) (ds : List R) : Option (List R) → Option (List Str) → Str → Prop
  | none {pre : List Str} {l : Str} {rest : Str} : (∀ l ∈ pre, GoodLine l ∧ Silent l) → GoodLine l → Number l 0 →
      ScatSec o ds none none (file (pre ++ [l]) ++ rest)
  | eof {pre : List Str} : (∀ l ∈ pre, GoodLine l ∧ Silent l) → ScatSec o ds none none (file pre)
  | some {pre : List Str} {l : Str} {ss : List R} {t : Str} {ns : List Str} {names : Option (List Str)} {rest : Str} :
      (∀ l ∈ pre, GoodLine l ∧ Silent l) → GoodLine l → Number l ds.length → ds ≠ [] → ScatText o ds ss t →
      NamesSec (largest (ss.map o.nout) : Nat) ns names →
      ScatSec o ds (some ss) names (file (pre ++ [l]) ++ (t ++ (file ns ++ rest)))
  | last {pre : List Str} {l : Str} {ss : List R} {t : Str} {ns : List Str} {w : Str} {names : List Str} :
      (∀ l ∈ pre, GoodLine l ∧ Silent l) → GoodLine l → Number l ds.length → ds ≠ [] → ScatText o ds ss t →
      NamesSec (largest (ss.map o.nout) : Nat) (ns ++ [w]) (some names) →
      ScatSec o ds (some ss) (some names) (file (pre ++ [l]) ++ (t ++ (file ns ++ w)))

/-- The union domain with the given domains, scatterings and names. -/
def union (o : Isl R) (nbPar : Nat) (ds : List R) (ss : Option (List R)) (names : Ty → Option (List Str)) :
    UD R R Unit where
  n := fun t => match t with
    | .param => nbPar
    | .iter => largest (ds.map o.nout)
    | .scat => largest ((ss.getD []).map o.nout)
  names := fun t => (names t).map fun l => l.map fun w => some (w.map Char.toNat)
  domains := match ss with
    | none => ds.map fun d => ⟨none, d, none, ()⟩
    | some ss => List.zipWith (fun d s => ⟨none, d, some s, ()⟩) ds ss

/-! ## Numbers -/

theorem head_drop_sp (sp q : Str) (h : ∀ c ∈ sp, isspace c = true) :
    (sp ++ q).dropWhile isspace = q.dropWhile isspace := by
  induction sp with
  | nil => rfl
  | cons c sp ih =>
    rw [List.cons_append, List.dropWhile_cons_of_pos (h c (by simp)), ih (fun x hx => h x (by simp [hx]))]

theorem drop_printInt (k : Int) (t : Str) : (printInt k ++ t).dropWhile isspace = printInt k ++ t := by
  cases hp : printInt k with
  | nil => exact absurd hp (printInt_ne k)
  | cons c s =>
    rw [List.cons_append, List.dropWhile_cons_of_neg (printInt_not_space k c (by rw [hp]; simp))]

theorem takeWhile_digits {s t : Str} (hs : ∀ c ∈ s, isdigit c = true) (ht : ∀ c, t.head? = some c → isdigit c = false) :
    (s ++ t).takeWhile isdigit = s ∧ (s ++ t).dropWhile isdigit = t := by
  rw [List.takeWhile_append_of_pos hs, List.dropWhile_append_of_pos hs]
  cases t with
  | nil => simp
  | cons c t =>
    have := ht c rfl
    rw [List.takeWhile_cons_of_neg (by simp [this]), List.dropWhile_cons_of_neg (by simp [this])]
    simp

theorem signedVal_printInt (k : Int) (t : Str) (ht : ∀ c, t.head? = some c → isdigit c = false) :
    signedVal (printInt k ++ t) = k := by
  obtain ⟨g1, g2, g3⟩ := printNat_spec k.natAbs
  by_cases hx : k < 0
  · have he : printInt k = '-' :: printNat k.natAbs := by simp [printInt, hx]
    simp only [signedVal, he, List.cons_append, List.head?_cons, if_true, List.tail_cons]
    rw [(takeWhile_digits g2 ht).1, g3]
    omega
  · have he : printInt k = printNat k.natAbs := by simp [printInt, hx]
    have hh : (printNat k.natAbs ++ t).head? = (printNat k.natAbs).head? := by
      cases hc : printNat k.natAbs with
      | nil => exact absurd hc g1
      | cons c s => rfl
    simp only [signedVal, he, hh]
    rw [if_neg (head_digit g1 g2 '-' (by decide)), if_neg (head_digit g1 g2 '+' (by decide)),
      (takeWhile_digits g2 ht).1, g3]
    omega

theorem scanD_number_raw (sp t : Str) (k : Int) (hsp : ∀ c ∈ sp, isspace c = true)
    (ht : ∀ c, t.head? = some c → isdigit c = false) :
    scanD (sp ++ printInt k ++ t) = some (toInt (saturate k), t) := by
  obtain ⟨g1, g2, g3⟩ := printNat_spec k.natAbs
  unfold scanD
  rw [List.append_assoc, head_drop_sp sp _ hsp, drop_printInt]
  dsimp only
  rw [signedVal_printInt k t ht]
  by_cases hx : k < 0
  · have he : printInt k = '-' :: printNat k.natAbs := by simp [printInt, hx]
    rw [he]
    simp only [List.cons_append, List.head?_cons, true_or, if_true, List.tail_cons]
    rw [(takeWhile_digits g2 ht).1, (takeWhile_digits g2 ht).2, if_neg g1]
  · have he : printInt k = printNat k.natAbs := by simp [printInt, hx]
    have hh : (printNat k.natAbs ++ t).head? = (printNat k.natAbs).head? := by
      cases hc : printNat k.natAbs with
      | nil => exact absurd hc g1
      | cons c s => rfl
    have hn : ¬ ((printNat k.natAbs).head? = some '-' ∨ (printNat k.natAbs).head? = some '+') := by
      rintro (h | h)
      · exact head_digit g1 g2 '-' (by decide) h
      · exact head_digit g1 g2 '+' (by decide) h
    rw [he, hh]
    simp only [if_neg hn]
    rw [(takeWhile_digits g2 ht).1, (takeWhile_digits g2 ht).2, if_neg g1]

theorem toInt_saturate (k : Int) (h1 : - 2 ^ 31 ≤ k) (h2 : k < 2 ^ 31) : toInt (saturate k) = k := by
  unfold toInt saturate
  split
  · omega
  · split <;> omega

theorem nl_not_digit {t : Str} (ht : ∀ c, t.head? = some c → isdigit c = false) :
    ∀ c, (t ++ ['\n']).head? = some c → isdigit c = false := by
  intro c hc
  cases t with
  | nil => simp at hc; subst hc; decide
  | cons a t => exact ht c (by simpa using hc)

theorem Number.scan {l : Str} {k : Int} (h : Number l k) : ∃ r, scanD (l ++ ['\n']) = some (k, r) := by
  obtain ⟨sp, t, rfl, hsp, ht, h1, h2⟩ := h
  refine ⟨t ++ ['\n'], ?_⟩
  rw [List.append_assoc (sp ++ printInt k), scanD_number_raw sp _ k hsp (nl_not_digit ht), toInt_saturate k h1 h2]

theorem Number.head {l : Str} {k : Int} (h : Number l k) :
    ¬ ((l ++ ['\n']).head? = some '#' ∨ (l ++ ['\n']).head? = some '\n') ∨ ∃ c s, l = c :: s ∧ isspace c = true := by
  obtain ⟨sp, t, rfl, hsp, ht, h1, h2⟩ := h
  cases sp with
  | cons c sp => exact .inr ⟨c, _, rfl, hsp c (by simp)⟩
  | nil =>
    left
    cases hp : printInt k with
    | nil => exact absurd hp (printInt_ne k)
    | cons c s =>
      have := printInt_chars k c (by rw [hp]; simp)
      simp only [List.nil_append, List.cons_append, List.head?_cons, Option.some.injEq]
      rintro (rfl | rfl) <;> revert this <;> decide

theorem Number.good {l : Str} {k : Int} (h : Number l k) (hg : '\n' ∉ l) :
    ¬ ((l ++ ['\n']).head? = some '#' ∨ (l ++ ['\n']).head? = some '\n') := by
  rcases h.head with h | ⟨c, s, rfl, hc⟩
  · exact h
  · simp only [List.cons_append, List.head?_cons, Option.some.injEq]
    rintro (rfl | rfl)
    · revert hc; decide
    · exact hg (by simp)

theorem Number.data {l : Str} {k : Int} (h : Number l k) : isData l = true := by
  obtain ⟨sp, t, rfl, hsp, ht, h1, h2⟩ := h
  unfold isData
  rw [List.append_assoc, head_drop_sp sp _ hsp, drop_printInt]
  cases hp : printInt k with
  | nil => exact absurd hp (printInt_ne k)
  | cons c s =>
    have := printInt_chars k c (by rw [hp]; simp)
    have hc : c ≠ '#' := by rintro rfl; revert this; decide
    simp [hc]

theorem Silent.scan {l : Str} (h : Silent l) : scanD (l ++ ['\n']) = none := by
  have key : (l ++ ['\n']).dropWhile isspace = [] ∨
      ∃ c s, (l ++ ['\n']).dropWhile isspace = c :: s ∧ isdigit c = false ∧ c ≠ '-' ∧ c ≠ '+' := by
    cases hq : l.dropWhile isspace with
    | nil =>
      left
      rw [List.dropWhile_append, hq]
      simp [List.dropWhile, show isspace '\n' = true by decide]
    | cons c s =>
      right
      refine ⟨c, s ++ ['\n'], ?_, h c (by rw [hq]; rfl)⟩
      rw [List.dropWhile_append, hq]
      simp
  unfold scanD
  rcases key with h | ⟨c, s, h, h1, h2, h3⟩
  · simp [h]
  · simp [h, h1, h2, h3]

/-! ## Lines -/

theorem fgets_line {l : Str} (h : GoodLine l) (r : Str) : fgets 1023 (l ++ '\n' :: r) = some (l ++ ['\n'], r) := by
  unfold fgets
  rw [fgetsGo_line _ _ _ h.1 (by have := h.2; omega)]
  simp

theorem file_append (a b : List Str) : file (a ++ b) = file a ++ file b := by simp [file]

/-- `next_line` with its buffer. -/
theorem nextRaw_file {P : Str → Prop} {ls : List Str} (h : DataSec P ls) (fuel : Nat) (r : Str) (hf : ls.length ≤ fuel) :
    ∃ l, nextRaw fuel (file ls ++ r) = some (l ++ ['\n'], r) ∧ P l := by
  obtain ⟨hp, hg, hd, hP⟩ := h
  rename_i pre l
  refine ⟨l, ?_, hP⟩
  induction pre generalizing fuel with
  | nil =>
    cases fuel with
    | zero => simp at hf
    | succ fuel =>
      have h1 : file ([] ++ [l]) ++ r = l ++ '\n' :: r := by simp [file]
      rw [nextRaw, h1, fgets_line hg]
      dsimp only
      rw [dropWhile_blank l hg.1, if_neg]
      unfold isData at hd
      simp only [Bool.and_eq_true, decide_eq_true_eq] at hd
      cases hq : l.dropWhile isspace with
      | nil => exact absurd hq hd.1
      | cons c s =>
        rw [hq] at hd
        simp only [List.cons_append, List.head?_cons, Option.some.injEq] at hd ⊢
        rintro (rfl | rfl)
        · exact hd.2 rfl
        · exact hg.1 ((List.dropWhile_sublist isspace).mem (by rw [hq]; simp))
  | cons a pre ih =>
    cases fuel with
    | zero => simp at hf
    | succ fuel =>
      have ha := hp a (by simp)
      have h1 : file (a :: pre ++ [l]) ++ r = a ++ '\n' :: (file (pre ++ [l]) ++ r) := by simp [file]
      rw [nextRaw, h1, fgets_line ha.1]
      dsimp only
      rw [dropWhile_blank a ha.1.1, if_pos]
      · exact ih fuel (fun x hx => hp x (by simp [hx])) (by simpa using hf)
      · have hd := ha.2
        unfold isData at hd
        simp only [Bool.and_eq_false_iff, decide_eq_false_iff_not, not_not] at hd
        rcases hd with hd | hd
        · right; rw [hd]; rfl
        · left
          cases hq : a.dropWhile isspace with
          | nil => rw [hq] at hd; simp at hd
          | cons c s => rw [hq] at hd; simpa using hd

theorem length_file (ls : List Str) (r : Str) : ls.length ≤ (file ls ++ r).length := by
  have := length_le_file ls
  simp only [List.length_append]; omega

theorem readOption_file {pre : List Str} {opt : Str} {k : Int} (hp : ∀ l ∈ pre, GoodLine l ∧ Silent l)
    (hg : GoodLine opt) (hk : Number opt k) (r : Str) : ∀ fuel, pre.length < fuel →
    readOption fuel (file (pre ++ [opt]) ++ r) = .ok (k, r) := by
  induction pre with
  | nil =>
    intro fuel hf
    obtain ⟨fuel, rfl⟩ : ∃ n, fuel = n + 1 := ⟨fuel - 1, by simp at hf; omega⟩
    have h1 : file ([] ++ [opt]) ++ r = opt ++ '\n' :: r := by simp [file]
    obtain ⟨x, hx⟩ := hk.scan
    rw [readOption, h1, fgets_line hg]
    dsimp only
    rw [if_neg (hk.good hg.1), hx]
  | cons a pre ih =>
    intro fuel hf
    obtain ⟨fuel, rfl⟩ : ∃ n, fuel = n + 1 := ⟨fuel - 1, by simp at hf; omega⟩
    have ha := hp a (by simp)
    have h1 : file (a :: pre ++ [opt]) ++ r = a ++ '\n' :: (file (pre ++ [opt]) ++ r) := by simp [file]
    have h2 := ih (fun x hx => hp x (by simp [hx])) fuel (by simpa using hf)
    rw [readOption, h1, fgets_line ha.1]
    dsimp only
    rw [ha.2.scan]
    split <;> exact h2

theorem readCount_file {pre : List Str} {opt : Str} {k : Int} (hp : ∀ l ∈ pre, GoodLine l ∧ Silent l)
    (hg : GoodLine opt) (hk : Number opt k) (r : Str) : ∀ fuel, pre.length < fuel →
    readCount fuel (file (pre ++ [opt]) ++ r) = (k, r) := by
  induction pre with
  | nil =>
    intro fuel hf
    obtain ⟨fuel, rfl⟩ : ∃ n, fuel = n + 1 := ⟨fuel - 1, by simp at hf; omega⟩
    have h1 : file ([] ++ [opt]) ++ r = opt ++ '\n' :: r := by simp [file]
    obtain ⟨x, hx⟩ := hk.scan
    rw [readCount, h1, fgets_line hg]
    dsimp only
    rw [if_neg (hk.good hg.1), hx]
  | cons a pre ih =>
    intro fuel hf
    obtain ⟨fuel, rfl⟩ : ∃ n, fuel = n + 1 := ⟨fuel - 1, by simp at hf; omega⟩
    have ha := hp a (by simp)
    have h1 : file (a :: pre ++ [opt]) ++ r = a ++ '\n' :: (file (pre ++ [opt]) ++ r) := by simp [file]
    have h2 := ih (fun x hx => hp x (by simp [hx])) fuel (by simpa using hf)
    rw [readCount, h1, fgets_line ha.1]
    dsimp only
    rw [ha.2.scan]
    split <;> exact h2

theorem readCount_eof {pre : List Str} (hp : ∀ l ∈ pre, GoodLine l ∧ Silent l) : ∀ fuel, pre.length < fuel →
    readCount fuel (file pre) = (0, []) := by
  induction pre with
  | nil =>
    intro fuel hf
    obtain ⟨fuel, rfl⟩ : ∃ n, fuel = n + 1 := ⟨fuel - 1, by simp at hf; omega⟩
    rfl
  | cons a pre ih =>
    intro fuel hf
    obtain ⟨fuel, rfl⟩ : ∃ n, fuel = n + 1 := ⟨fuel - 1, by simp at hf; omega⟩
    have ha := hp a (by simp)
    have h2 := ih (fun x hx => hp x (by simp [hx])) fuel (by simpa using hf)
    rw [readCount, file_cons, fgets_line ha.1]
    dsimp only
    rw [ha.2.scan]
    split <;> exact h2

/-! ## Names -/

theorem readWords_ok (ns extra : List Str) : ∀ c : Str, words c = ns ++ extra →
    (∀ n ∈ ns, n.head? ≠ some '#' ∧ n.length < 50) → readWords ns.length c = .ok ns := by
  induction ns with
  | nil => intro c _ _; rfl
  | cons w ns ih =>
    intro c hc hn
    have hw := hn w (by simp)
    have hne : c.dropWhile isspace ≠ [] := by
      intro h; rw [words_eq_nil c h] at hc; simp at hc
    have hs := words_split c hne
    rw [hs] at hc
    obtain ⟨h1, h2⟩ := List.cons.inj hc
    rw [List.length_cons, readWords]
    dsimp only
    have hhead : (c.dropWhile isspace).head? ≠ some '#' := by
      intro h
      apply hw.1
      rw [← h1]
      cases hq : c.dropWhile isspace with
      | nil => exact absurd hq hne
      | cons a s =>
        rw [hq] at h
        simp only [List.head?_cons, Option.some.injEq] at h
        subst h
        rw [List.takeWhile_cons_of_pos (by decide)]
        rfl
    rw [if_neg (by rintro (h | h); exacts [hne h, hhead h]), h1,
      if_neg (by have := hw.2; unfold maxName; omega)]
    have hd : (c.dropWhile isspace).drop w.length = (c.dropWhile isspace).dropWhile (fun c => !isspace c) := by
      conv_lhs => rw [← List.takeWhile_append_dropWhile (p := fun c => !isspace c) (l := c.dropWhile isspace), h1]
      simp
    rw [hd, ih _ h2 (fun n hn' => hn n (by simp [hn']))]
    rfl

theorem readNames_sec {nb : Int} {ls : List Str} {ns : Option (List Str)} (h : NamesSec nb ls ns) (r : Str) :
    readNames nb (file ls ++ r) = .ok (ns, r) := by
  cases h with
  | @off pre opt k hp hg hk h0 =>
    unfold readNames
    rw [readOption_file hp hg hk r _ (by
      have := length_file (pre ++ [opt]) r; simp only [List.length_append, List.length_singleton] at this ⊢; omega)]
    show (if nb = 0 then _ else _) = _
    dsimp only
    rcases h0 with h0 | h0
    · rw [if_pos h0]
    · rw [if_pos h0]; split <;> rfl
  | @on pre cs opt w k ns extra hp hg hk hk0 hcs hgw hdw hw hns hnb hlen =>
    unfold readNames
    have he : file (pre ++ opt :: (cs ++ [w])) ++ r = file (pre ++ [opt]) ++ (file (cs ++ [w]) ++ r) := by
      simp [file]
    rw [he, readOption_file hp hg hk _ _ (by
      have := length_file (pre ++ [opt]) (file (cs ++ [w]) ++ r)
      simp only [List.length_append, List.length_singleton] at this ⊢; omega)]
    show (if nb = 0 then _ else _) = _
    dsimp only
    rw [if_neg (by omega), if_neg hk0, if_neg (by omega),
      nextLine_file _ (cs ++ [w]) r (by
        intro l hl
        rcases List.mem_append.1 hl with hl | hl
        · exact (hcs l hl).1
        · simp only [List.mem_singleton] at hl; subst hl; exact hgw)
        (by have := length_file (cs ++ [w]) r; omega) w [] (by
          rw [List.dropWhile_append_of_pos (by intro l hl; simp [(hcs l hl).2])]
          rw [List.dropWhile_cons_of_neg (by simp [hdw])])]
    have hn : nb.toNat = ns.length := by omega
    dsimp only
    rw [hn, readWords_ok ns extra _ (by rw [words_line, hw]) hns]
    rfl

theorem fgetsGo_last (n : Nat) (l : Str) (hn : '\n' ∉ l) (hl : l.length ≤ n) : fgetsGo n l = (l, []) := by
  induction l generalizing n with
  | nil => cases n <;> rfl
  | cons c l ih =>
    cases n with
    | zero => simp at hl
    | succ n =>
      simp only [List.mem_cons, not_or] at hn
      have : c ≠ '\n' := fun h => hn.1 h.symm
      simp only [fgetsGo, this, if_false, ih n hn.2 (by simpa using hl)]

/-- A line with data at the end of the file, without the end of the line. -/
theorem nextLine_last : ∀ (fuel : Nat) (cs : List Str) (w : Str), (∀ l ∈ cs, GoodLine l ∧ isData l = false) →
    GoodLine w → isData w = true → cs.length < fuel →
    ∃ p, nextLine fuel (file cs ++ w) = some (p, []) ∧ words p = words w
  | 0, _, _, _, _, _, h => by omega
  | fuel + 1, [], w, _, hg, hd, _ => by
    have hw : w ≠ [] := by rintro rfl; revert hd; decide
    have hs : w.dropWhile isspace ≠ [] ∧ (w.dropWhile isspace).head? ≠ some '#' := by
      unfold isData at hd
      simpa only [Bool.and_eq_true, decide_eq_true_eq] using hd
    have hb : w.dropWhile isBlank = w.dropWhile isspace := by
      have : ∀ v : Str, '\n' ∉ v → v.dropWhile isBlank = v.dropWhile isspace := by
        intro v
        induction v with
        | nil => intro _; rfl
        | cons c v ih =>
          intro hv
          simp only [List.mem_cons, not_or] at hv
          have hc : isBlank c = isspace c := isBlank_of_ne c (fun h => hv.1 h.symm)
          by_cases h : isspace c = true
          · rw [List.dropWhile_cons_of_pos (by rw [hc]; exact h), List.dropWhile_cons_of_pos h, ih hv.2]
          · rw [List.dropWhile_cons_of_neg (by rw [hc]; exact h), List.dropWhile_cons_of_neg h]
      exact this w hg.1
    refine ⟨w.dropWhile isspace, ?_, ?_⟩
    · rw [show file [] ++ w = w from rfl, nextLine]
      unfold fgets
      rw [if_neg hw, fgetsGo_last _ _ hg.1 (by have := hg.2; omega)]
      dsimp only
      rw [hb, if_neg]
      rintro (h | h)
      · exact hs.2 h
      · cases hq : w.dropWhile isspace with
        | nil => exact hs.1 hq
        | cons a s =>
          rw [hq] at h
          simp only [List.head?_cons, Option.some.injEq] at h
          have hm : a ∈ w := (List.dropWhile_sublist (p := isspace) (l := w)).subset (by rw [hq]; simp)
          exact hg.1 (h ▸ hm)
    · have e : w = w.takeWhile isspace ++ w.dropWhile isspace := (List.takeWhile_append_dropWhile).symm
      have : ∀ sp q : Str, (∀ c ∈ sp, isspace c = true) → words (sp ++ q) = words q := by
        intro sp q
        induction sp with
        | nil => intro _; rfl
        | cons c sp ih =>
          intro h
          rw [List.cons_append, words_cons_space _ _ (h c (by simp)), ih (fun x hx => h x (by simp [hx]))]
      conv_rhs => rw [e]
      rw [this]
      intro c hc
      exact List.mem_takeWhile_imp hc
  | fuel + 1, c :: cs, w, hc, hg, hd, hf => by
    have h := hc c (by simp)
    obtain ⟨p, e1, e2⟩ := nextLine_last fuel cs w (fun l hl => hc l (by simp [hl])) hg hd (by simpa using hf)
    refine ⟨p, ?_, e2⟩
    rw [file_cons, List.append_assoc, List.cons_append, nextLine, fgets_line h.1]
    dsimp only
    rw [dropWhile_blank c h.1.1, if_pos, e1]
    have hd' := h.2
    unfold isData at hd'
    simp only [Bool.and_eq_false_iff, decide_eq_false_iff_not, not_not] at hd'
    rcases hd' with hd' | hd'
    · right; rw [hd']; rfl
    · left
      cases hq : c.dropWhile isspace with
      | nil => rw [hq] at hd'; simp at hd'
      | cons a s => rw [hq] at hd'; simpa using hd'

theorem readNames_last {nb : Int} {ls : List Str} {w : Str} {ns : List Str} (h : NamesSec nb (ls ++ [w]) (some ns)) :
    readNames nb (file ls ++ w) = .ok (some ns, []) := by
  generalize hL : ls ++ [w] = L at h
  generalize hN : some ns = N at h
  cases h with
  | off => cases hN
  | @on pre cs opt w' k ns' extra hp hg hk hk0 hcs hgw hdw hw hns hnb hlen =>
    cases hN
    have e : ls ++ [w] = (pre ++ opt :: cs) ++ [w'] := by rw [hL]; simp
    obtain ⟨e1, e2⟩ := List.append_inj' e rfl
    have e3 : w = w' := by simpa using e2
    subst e1 e3
    unfold readNames
    have he : file (pre ++ opt :: cs) ++ w = file (pre ++ [opt]) ++ (file cs ++ w) := by simp [file]
    rw [he, readOption_file hp hg hk _ _ (by
      have := length_file (pre ++ [opt]) (file cs ++ w)
      simp only [List.length_append, List.length_singleton] at this ⊢; omega)]
    show (if nb = 0 then _ else _) = _
    obtain ⟨p, q1, q2⟩ := nextLine_last ((file cs ++ w).length + 1) cs w hcs hgw hdw (by
      have := length_file cs w; omega)
    dsimp only
    rw [if_neg (by omega), if_neg hk0, if_neg (by omega), q1]
    have hn : nb.toNat = ns.length := by omega
    dsimp only
    rw [hn, readWords_ok ns extra _ (by rw [q2, hw]) hns]
    rfl

/-! ## Calls -/

theorem nameCalls_run (o : Isl R) (t : Ty) (ns : List Str) (hne : ns ≠ []) (ud : UD R R Unit)
    (hn : ud.n t = ns.length) (h0 : ud.names t = none) :
    runCalls o (nameCalls t (some ns)) ud =
      .ok { ud with names := fun t' => if t' = t then some (ns.map fun w => some (cstr w)) else ud.names t' } := by
  have key : ∀ (post pre : List Str) (ud' : UD R R Unit) (old : List (Option CStr)), pre ++ post = ns → ud'.n = ud.n →
      ud'.domains = ud.domains → (∀ t', t' ≠ t → ud'.names t' = ud.names t') →
      (ud'.names t).getD (List.replicate (ud.n t) none) = pre.map (fun w => some (cstr w)) ++ old →
      old.length = post.length → (post = [] → ud'.names t ≠ none) →
      run o.nout o.nout ((post.zipIdx pre.length).map fun p => (.setName (some t) p.2 (cstr p.1) : Call R R Unit)) ud' =
        .ok { ud with names := fun t' => if t' = t then some (ns.map fun w => some (cstr w)) else ud.names t' } := by
    intro post
    induction post with
    | nil =>
      intro pre ud' old hpre h1 h2 h3 h4 h5 h6
      simp only [List.append_nil] at hpre
      have h5' : old = [] := by simpa using h5
      subst h5'
      rw [List.append_nil, hpre] at h4
      simp only [List.zipIdx_nil, List.map_nil, run]
      congr 1
      obtain ⟨n', names', doms'⟩ := ud'
      obtain ⟨n, names, doms⟩ := ud
      simp only at h1 h2 h3 h4 h6
      subst h1 h2
      congr 1
      funext t'
      by_cases ht : t' = t
      · subst ht
        rw [if_pos rfl]
        cases hx : names' t' with
        | none => exact absurd hx (h6 trivial)
        | some l => rw [hx] at h4; simpa using h4
      · rw [if_neg ht, h3 t' ht]
    | cons w post ih =>
      intro pre ud' old hpre h1 h2 h3 h4 h5 h6
      cases old with
      | nil => simp at h5
      | cons x old =>
        simp only [List.zipIdx_cons, List.map_cons, run, step, setName]
        rw [if_neg (by
          rw [h1, hn, ← hpre]
          simp only [List.length_append, List.length_cons]
          omega)]
        dsimp only
        have hlen : (pre.map (fun w => some (cstr w)) : List (Option CStr)).length = pre.length := by simp
        have hset : ((ud'.names t).getD (List.replicate (ud'.n t) none)).set (pre.length : Int).toNat (some (cstr w)) =
            (pre ++ [w]).map (fun w => some (cstr w)) ++ old := by
          rw [h1, h4, Int.toNat_natCast, List.set_append_right _ _ (by rw [hlen])]
          simp
        have := ih (pre ++ [w]) { ud' with names := fun t' => if t' = t then some (((ud'.names t).getD (List.replicate (ud'.n t) none)).set (pre.length : Int).toNat (some (cstr w))) else ud'.names t' }
          old (by rw [← hpre]; simp) h1 h2
          (fun t' ht => by simp only; rw [if_neg ht, h3 t' ht])
          (by simp only [if_true, Option.getD_some]; exact hset) (by simpa using h5)
          (by intro _; simp)
        simpa using this
  unfold runCalls nameCalls
  have := key ns [] ud (List.replicate (ud.n t) none) rfl rfl rfl (fun _ _ => rfl) (by simp [h0]) (by simp [hn])
    (fun h => absurd h hne)
  simp only [List.length_nil] at this
  rw [this]

theorem namesSec_ne {nb : Int} {ls ns : List Str} (h : NamesSec nb ls (some ns)) : ns ≠ [] ∧ (ns.length : Int) = nb := by
  cases h with
  | on _ _ _ _ _ _ _ _ _ h1 h2 =>
    refine ⟨?_, h2⟩
    rintro rfl
    simp at h2; omega

theorem nameCalls_sec (o : Isl R) (t : Ty) {nb : Int} {ls : List Str} {ns : Option (List Str)} (h : NamesSec nb ls ns)
    (ud : UD R R Unit) (hn : (ud.n t : Int) = nb) (h0 : ud.names t = none) :
    runCalls o (nameCalls t ns) ud = .ok { ud with
      names := fun t' => if t' = t then ns.map (fun l => l.map fun w => some (cstr w)) else ud.names t' } := by
  cases ns with
  | none =>
    simp only [nameCalls, runCalls, run, Option.map_none]
    congr 1
    obtain ⟨n, names, doms⟩ := ud
    congr 1
    funext t'
    by_cases ht : t' = t
    · rw [if_pos ht, ht]; exact h0
    · rw [if_neg ht]
  | some ns =>
    obtain ⟨h1, h2⟩ := namesSec_ne h
    rw [nameCalls_run o t ns h1 ud (by omega) h0]
    rfl

theorem run_adds (o : Isl R) (as : List (Named R R Unit)) : ∀ ud : UD R R Unit, ud.names .iter = none → ud.names .scat = none →
    run o.nout o.nout (as.map Call.add) ud = .ok { ud with
      n := fun t => match t with
        | .param => ud.n .param
        | .iter => max (ud.n .iter) (largest (as.map fun a => o.nout a.dom))
        | .scat => max (ud.n .scat) (largest (as.filterMap fun a => a.scat.map o.nout))
      domains := ud.domains ++ as } := by
  induction as with
  | nil =>
    intro ud h1 h2
    simp only [List.map_nil, run, List.append_nil]
    congr 1
    obtain ⟨n, names, doms⟩ := ud
    congr 1
    funext t
    cases t <;> simp [largest]
  | cons a as ih =>
    intro ud h1 h2
    simp only [List.map_cons, run, step, addDomain, h1, h2, Option.isSome_none, Bool.false_eq_true, if_false]
    refine (ih { ud with n := grow o.nout o.nout a ud.n, domains := ud.domains ++ [a] } h1 h2).trans ?_
    congr 1
    simp only [UD.mk.injEq, List.append_assoc, List.singleton_append, and_self, and_true]
    funext t
    cases t with
    | param => rfl
    | iter =>
      simp only [grow, ite_gt, largest, List.foldr_cons]
      show max (max _ _) _ = max _ (max _ _)
      omega
    | scat =>
      cases hs : a.scat with
      | none => simp [grow, hs]
      | some s =>
        simp only [grow, hs, ite_gt, largest, List.filterMap_cons, Option.map_some, List.foldr_cons]
        show max (max _ _) _ = max _ (max _ _)
        omega

theorem addCalls_eq (ds : List R) (ss : Option (List R)) : addCalls ds ss =
    ((match ss with
      | none => ds.map fun d => ⟨none, d, none, ()⟩
      | some ss => List.zipWith (fun d s => ⟨none, d, some s, ()⟩) ds ss) : List (Named R R Unit)).map Call.add := by
  cases ss with
  | none => simp [addCalls]
  | some ss => simp [addCalls, List.map_zipWith]

theorem maxDim_eq (o : Isl R) (ds : List R) (h : ds ≠ []) : maxDim o ds = (largest (ds.map o.nout) : Nat) := by
  have key : ∀ (ds : List R) (n : Int), -1 ≤ n →
      ds.foldl (fun n d => if (o.nout d : Int) > n then (o.nout d : Int) else n) n =
        if ds = [] then n else max n (largest (ds.map o.nout) : Nat) := by
    intro ds
    induction ds with
    | nil => intro n _; rfl
    | cons d ds ih =>
      intro n hn
      rw [List.foldl_cons, ih _ (by split_ifs <;> omega)]
      simp only [largest, List.map_cons, List.foldr_cons, reduceCtorEq, if_false]
      have h2 : ((Nat.max (o.nout d) (List.foldr Nat.max 0 (List.map o.nout ds)) : Nat) : Int) =
        max (o.nout d : Int) (List.foldr Nat.max 0 (List.map o.nout ds) : Nat) := by
        show ((max _ _ : Nat) : Int) = _
        push_cast; rfl
      rw [h2]
      by_cases hd : ds = []
      · subst hd; simp only [if_true, List.map_nil, List.foldr_nil]; split_ifs <;> omega
      · rw [if_neg hd]; split_ifs <;> omega
  unfold maxDim
  rw [key ds (-1) (by omega), if_neg h]
  omega

/-! ## Sets and relations -/

theorem ofIsl_some {α : Type} (a : α) : Res.ofIsl (some a) = .ok a := rfl

theorem ok_bind {α β : Type} (a : α) (f : α → Res β) : Res.bind (.ok a) f = f a := rfl

theorem readDomain_ok {o : Isl R} {nb : Nat} {t : Str} {d : R} (h : ParsesDom o nb t d) (rest : Str) :
    readDomain o nb (t ++ rest) = .ok (d, rest) := by
  obtain ⟨r, h1, h2⟩ := h
  unfold readDomain
  rw [h1 rest]
  simp only [Res.ofIsl, Res.bind]
  by_cases hn : o.np r = nb
  · rw [if_pos hn] at h2; subst h2; rw [if_neg (by simpa using hn)]
  · rw [if_neg hn] at h2; rw [if_pos hn, h2]

theorem readScattering_ok {o : Isl R} {d : R} {t : Str} {s : R} (h : ParsesScat o d t s) (rest : Str) :
    readScattering o d (t ++ rest) = .ok (s, rest) := by
  obtain ⟨r, r', h1, h2, h3⟩ := h
  have e1 : (if o.np r ≠ o.np d then Res.ofIsl (o.toParam r ((o.nout r : Int) - o.np d) (o.np d)) else .ok r) = .ok r' := by
    by_cases hn : o.np r = o.np d
    · rw [if_pos hn] at h2; rw [if_neg (by simpa using hn), h2]
    · rw [if_neg hn] at h2; rw [if_pos hn, h2]; rfl
  have e2 : scatIn o (o.nout d) r' = .ok s := by
    unfold scatIn
    by_cases hn : o.nin r' = o.nout d
    · rw [if_pos hn] at h3; rw [if_neg (by simpa using hn), h3]
    · rw [if_neg hn] at h3; rw [if_pos hn, h3]; rfl
  unfold readScattering
  rw [h1 rest]
  simp only [ofIsl_some, ok_bind]
  rw [e1, ok_bind, e2, ok_bind]

theorem space_not_digit {c : Char} (h : isspace c = true) : isdigit c = false := by
  cases hd : isdigit c with
  | false => rfl
  | true => exact absurd h (not_space_of_digit c hd)

theorem scan3_three {l : Str} (h : Three l) : scan3 (l ++ ['\n']) = true := by
  obtain ⟨a, b, c, s1, s2, s3, t, rfl, h2, h3, hs⟩ := h
  have hsp : ∀ (s u : Str), s ≠ [] → (∀ x ∈ s, isspace x = true) → ∀ x, (s ++ u).head? = some x → isdigit x = false := by
    intro s u hne hall x hx
    cases s with
    | nil => exact absurd rfl hne
    | cons y s =>
      simp only [List.cons_append, List.head?_cons, Option.some.injEq] at hx
      subst hx
      exact space_not_digit (hall _ (by simp))
  have a1 : ∀ x ∈ s1, isspace x = true := fun x hx => hs x (by simp [hx])
  have a2 : ∀ x ∈ s2, isspace x = true := fun x hx => hs x (by simp [hx])
  have a3 : ∀ x ∈ s3, isspace x = true := fun x hx => hs x (by simp [hx])
  have e1 : s1 ++ printInt a ++ (s2 ++ printInt b ++ (s3 ++ printInt c ++ t)) ++ ['\n'] =
      s1 ++ printInt a ++ (s2 ++ printInt b ++ (s3 ++ printInt c ++ t ++ ['\n'])) := by simp
  have e2 : ∃ x, scanD (s3 ++ printInt c ++ t ++ ['\n']) = some x := by
    obtain ⟨g1, g2, g3⟩ := printNat_spec c.natAbs
    unfold scanD
    rw [List.append_assoc, List.append_assoc, head_drop_sp s3 _ a3, drop_printInt]
    dsimp only
    rw [if_neg]
    · exact ⟨_, rfl⟩
    · by_cases hx : c < 0
      · have he : printInt c = '-' :: printNat c.natAbs := by simp [printInt, hx]
        rw [he]
        simp only [List.cons_append, List.head?_cons, true_or, if_true, List.tail_cons]
        rw [List.takeWhile_append_of_pos g2]
        simp [g1]
      · have he : printInt c = printNat c.natAbs := by simp [printInt, hx]
        have hh : (printNat c.natAbs ++ (t ++ ['\n'])).head? = (printNat c.natAbs).head? := by
          cases hc : printNat c.natAbs with
          | nil => exact absurd hc g1
          | cons c s => rfl
        have hn : ¬ ((printNat c.natAbs).head? = some '-' ∨ (printNat c.natAbs).head? = some '+') := by
          rintro (h | h)
          · exact head_digit g1 g2 '-' (by decide) h
          · exact head_digit g1 g2 '+' (by decide) h
        rw [he, hh]
        simp only [if_neg hn]
        rw [List.takeWhile_append_of_pos g2]
        simp [g1]
  obtain ⟨x, hx⟩ := e2
  unfold scan3
  rw [e1, scanD_number_raw s1 _ a a1 (by rw [List.append_assoc]; exact hsp s2 _ h2 a2)]
  dsimp only
  rw [scanD_number_raw s2 _ b a2 (by rw [List.append_assoc, List.append_assoc]; exact hsp s3 _ h3 a3)]
  dsimp only
  rw [hx]
  rfl

theorem readDomains_ok {o : Isl R} {nb : Nat} {ds : List R} {f : Str} (h : DomText o nb ds f) (rest : Str) :
    readDomains o nb ds.length (f ++ rest) = .ok (ds, rest) := by
  induction h with
  | nil => rfl
  | @cons d t ls ds f h1 h2 _ ih =>
    rw [List.length_cons, readDomains, List.append_assoc, List.append_assoc, readDomain_ok h1]
    obtain ⟨l, e1, e2⟩ := nextRaw_file h2 ((file ls ++ (f ++ rest)).length + 1) (f ++ rest)
      (by have := length_file ls (f ++ rest); omega)
    simp only [Res.bind, e1]
    rw [scan3_three e2, if_neg (by simp), ih]

theorem readScats_ok {o : Isl R} {ds ss : List R} {f : Str} (h : ScatText o ds ss f) (rest : Str) :
    readScats o ds (f ++ rest) = .ok (ss, rest) ∧ ss.length = ds.length := by
  induction h with
  | nil => exact ⟨rfl, rfl⟩
  | @cons d s t ds ss f h1 _ ih =>
    refine ⟨?_, by simp [ih.2]⟩
    rw [readScats, List.append_assoc, readScattering_ok h1]
    simp only [Res.bind, ih.1]

theorem readScatList_ok {o : Isl R} {ds : List R} {ss : Option (List R)} {sn : Option (List Str)} {f : Str}
    (h : ScatSec o ds ss sn f) : ∃ f', readScatList o ds f = .ok (ss, f') ∧ (ss = none → sn = none) ∧
      ∀ l, ss = some l → l.length = ds.length ∧ ∃ ns rest,
        readNames (largest (l.map o.nout) : Nat) f' = .ok (sn, rest) ∧
        NamesSec (largest (l.map o.nout) : Nat) ns sn := by
  cases h with
  | @none pre l rest h1 h2 h3 =>
    refine ⟨rest, ?_, fun _ => rfl, by simp⟩
    unfold readScatList
    rw [readCount_file h1 h2 h3 rest _ (by
      have := length_file (pre ++ [l]) rest; simp only [List.length_append, List.length_singleton] at this ⊢; omega)]
    rfl
  | @eof pre h1 =>
    refine ⟨[], ?_, fun _ => rfl, by simp⟩
    unfold readScatList
    rw [readCount_eof h1 _ (by have := length_le_file pre; omega)]
    rfl
  | @some pre l ss t ns names rest h1 h2 h3 h4 h5 h6 =>
    obtain ⟨e1, e2⟩ := readScats_ok h5 (file ns ++ rest)
    refine ⟨file ns ++ rest, ?_, by simp, ?_⟩
    · unfold readScatList
      rw [readCount_file h1 h2 h3 _ _ (by
        have := length_file (pre ++ [l]) (t ++ (file ns ++ rest))
        simp only [List.length_append, List.length_singleton] at this ⊢; omega)]
      dsimp only
      rw [if_neg (by have := List.length_pos_iff.2 h4; omega), if_neg (by simp), e1]
      rfl
    · intro l' hl
      cases hl
      exact ⟨e2, ns, rest, readNames_sec h6 rest, h6⟩
  | @last pre l ss t ns w names h1 h2 h3 h4 h5 h6 =>
    obtain ⟨e1, e2⟩ := readScats_ok h5 (file ns ++ w)
    refine ⟨file ns ++ w, ?_, by simp, ?_⟩
    · unfold readScatList
      rw [readCount_file h1 h2 h3 _ _ (by
        have := length_file (pre ++ [l]) (t ++ (file ns ++ w))
        simp only [List.length_append, List.length_singleton] at this ⊢; omega)]
      dsimp only
      rw [if_neg (by have := List.length_pos_iff.2 h4; omega), if_neg (by simp), e1]
      rfl
    · intro l' hl
      cases hl
      exact ⟨e2, ns ++ [w], [], readNames_last h6, h6⟩

theorem zipWith_left {α β : Type} (g : R → β) : ∀ (ds : List R) (l : List α), l.length = ds.length →
    List.zipWith (fun d _ => g d) ds l = ds.map g
  | [], [], _ => rfl
  | d :: ds, a :: l, h => by simp [zipWith_left g ds l (by simpa using h)]
  | [], _ :: _, h => by simp at h
  | _ :: _, [], h => by simp at h

theorem zipWith_right (g : R → Nat) : ∀ (ds l : List R), l.length = ds.length →
    (List.zipWith (fun d s => (⟨none, d, some s, ()⟩ : Named R R Unit)) ds l).filterMap (fun a => a.scat.map g) = l.map g
  | [], [], _ => rfl
  | d :: ds, a :: l, h => by simp [zipWith_right g ds l (by simpa using h)]
  | [], _ :: _, h => by simp at h
  | _ :: _, [], h => by simp at h

/-- **C60, reading.**  A file with, in this order: a line that begins with the letter of the language; the
    context; the names of the parameters; the number of domains; the domains, each with a line of three
    numbers; the names of the iterators; the number of scatterings, the scatterings and the names of their
    dimensions (or 0, or nothing) is read as exactly this input. -/
theorem C60_read (o : Isl R) {A P C I : List Str} {tctx D S : Str} {c : Char} {r ctx : R} {ds : List R}
    {ss : Option (List R)} {pn its sn : Option (List Str)}
    (hA : DataSec (fun l => l.head? = some c) A)
    (hctx : Parses o tctx r) (hctx' : o.toParam r 0 (o.nout r) = some ctx)
    (hP : NamesSec (o.np ctx) P pn)
    (hC : DataSec (fun l => Number l ds.length) C)
    (hD : DomText o (o.np ctx) ds D)
    (hI : NamesSec (if ds = [] then (-1 : Int) else ((largest (ds.map o.nout) : Nat) : Int)) I its)
    (hS : ScatSec o ds ss sn S) :
    ∃ rest, readInput o (file A ++ (tctx ++ (file P ++ (file C ++ (D ++ (file I ++ S)))))) =
      .ok (⟨if c = 'f' then .fortran else .c, ctx, union o (o.np ctx) ds ss (fun t => match t with
        | .param => pn
        | .iter => its
        | .scat => sn)⟩, rest) := by
  obtain ⟨l, ea, hl⟩ := nextRaw_file hA
    ((file A ++ (tctx ++ (file P ++ (file C ++ (D ++ (file I ++ S)))))).length + 1)
    (tctx ++ (file P ++ (file C ++ (D ++ (file I ++ S))))) (by
      have := length_file A (tctx ++ (file P ++ (file C ++ (D ++ (file I ++ S))))); omega)
  have hhead : (l ++ ['\n']).head? = some c := by
    cases l with
    | nil => simp at hl
    | cons a l => simpa using hl
  have ectx : readContext o (tctx ++ (file P ++ (file C ++ (D ++ (file I ++ S))))) =
      .ok (ctx, file P ++ (file C ++ (D ++ (file I ++ S)))) := by
    unfold readContext
    rw [hctx]
    simp only [Res.ofIsl, Res.bind, hctx']
  obtain ⟨lc, ec, hn⟩ := nextRaw_file hC ((file C ++ (D ++ (file I ++ S))).length + 1) (D ++ (file I ++ S)) (by
    have := length_file C (D ++ (file I ++ S)); omega)
  obtain ⟨q, hq⟩ := hn.scan
  have hmax : maxDim o ds = if ds = [] then (-1 : Int) else ((largest (ds.map o.nout) : Nat) : Int) := by
    by_cases h : ds = []
    · subst h; rfl
    · rw [if_neg h, maxDim_eq o ds h]
  obtain ⟨f', es, hs1, hs2⟩ := readScatList_ok hS
  -- the union domain after the calls
  let nm1 : Ty → Option (List (Option CStr)) := fun t => match t with
    | .param => pn.map (fun l => l.map fun w => some (cstr w))
    | _ => none
  have en1 : runCalls o (nameCalls .param pn) (alloc (o.np ctx)) = .ok ⟨(alloc (o.np ctx) : UD R R Unit).n, nm1, []⟩ := by
    rw [nameCalls_sec o .param hP (alloc (o.np ctx)) rfl rfl]
    congr 2
    funext t; cases t <;> rfl
  have hdoms : ∃ as : List (Named R R Unit), addCalls ds ss = as.map Call.add ∧
      (union o (o.np ctx) ds ss (fun _ => none)).domains = as ∧ as.map (fun a => o.nout a.dom) = ds.map o.nout ∧
      as.filterMap (fun a => a.scat.map o.nout) = (ss.getD []).map o.nout := by
    refine ⟨_, addCalls_eq ds ss, rfl, ?_⟩
    cases ss with
    | none => simp [Function.comp_def]
    | some l =>
      obtain ⟨hl, -⟩ := hs2 l rfl
      constructor
      · simp only [List.map_zipWith]
        exact zipWith_left (fun d => o.nout d) ds l hl
      · simp only [Option.getD_some]
        exact zipWith_right o.nout ds l hl
  obtain ⟨as, ha1, ha2, ha3, ha4⟩ := hdoms
  let n2 : Ty → Nat := fun t => match t with
    | .param => o.np ctx
    | .iter => largest (ds.map o.nout)
    | .scat => largest ((ss.getD []).map o.nout)
  have en2 : runCalls o (addCalls ds ss) ⟨(alloc (o.np ctx) : UD R R Unit).n, nm1, []⟩ = .ok ⟨n2, nm1, as⟩ := by
    unfold runCalls
    rw [ha1, run_adds o as _ rfl rfl]
    dsimp only
    congr 2
    funext t
    cases t with
    | param => rfl
    | iter => simp only [alloc, ha3, n2]; omega
    | scat => simp only [alloc, ha4, n2]; omega
  let nm3 : Ty → Option (List (Option CStr)) := fun t => match t with
    | .param => pn.map (fun l => l.map fun w => some (cstr w))
    | .iter => its.map (fun l => l.map fun w => some (cstr w))
    | .scat => none
  have en3 : runCalls o (nameCalls .iter its) ⟨n2, nm1, as⟩ = .ok ⟨n2, nm3, as⟩ := by
    by_cases hd : ds = []
    · rw [if_pos hd] at hI
      have : its = none := by
        cases hI with
        | off => rfl
        | on => omega
      subst this
      simp only [nameCalls, runCalls, run]
      congr 2
      funext t; cases t <;> rfl
    · rw [if_neg hd] at hI
      rw [nameCalls_sec o .iter hI ⟨n2, nm1, as⟩ rfl rfl]
      congr 2
      funext t; cases t <;> rfl
  have en4 : ∃ rest, readScatNames o ss ⟨n2, nm3, as⟩ f' = .ok (union o (o.np ctx) ds ss (fun t => match t with
        | .param => pn
        | .iter => its
        | .scat => sn), rest) := by
    cases ss with
    | none =>
      refine ⟨f', ?_⟩
      have := hs1 rfl
      subst this
      simp only [readScatNames]
      congr 2
      simp only [union, UD.mk.injEq]
      refine ⟨rfl, ?_, ha2.symm⟩
      funext t; cases t <;> rfl
    | some l =>
      obtain ⟨hl, ns, rest, eN, hN⟩ := hs2 l rfl
      refine ⟨rest, ?_⟩
      simp only [readScatNames]
      rw [show ((n2 .scat : Nat) : Int) = (largest (l.map o.nout) : Nat) from rfl, eN, ok_bind]
      dsimp only
      rw [nameCalls_sec o .scat hN ⟨n2, nm3, as⟩ rfl rfl, ok_bind]
      congr 2
      simp only [union, UD.mk.injEq]
      refine ⟨rfl, ?_, ha2.symm⟩
      funext t; cases t <;> rfl
  obtain ⟨rest, en4⟩ := en4
  refine ⟨rest, ?_⟩
  unfold readInput
  rw [ea]
  dsimp only
  rw [ectx, ok_bind]
  unfold readUnion
  dsimp only
  rw [readNames_sec hP, ok_bind]
  dsimp only
  rw [en1, ok_bind, ec]
  dsimp only
  rw [hq]
  dsimp only
  rw [if_neg (by omega), Int.toNat_natCast, readDomains_ok hD, ok_bind]
  dsimp only
  rw [hmax, readNames_sec hI, ok_bind]
  dsimp only
  rw [es, ok_bind]
  dsimp only
  rw [en2, ok_bind, en3, ok_bind, en4, ok_bind, hhead]
  simp only [Option.some.injEq]

/-! ## Dumping -/

/-- How isl reads and prints: blank lines and comments are skipped, a printed relation is read again, and
    moving no dimension changes nothing. -/
structure IslText (o : Isl R) : Prop where
  blank : ∀ s, o.rd ('\n' :: s) = o.rd s
  comment : ∀ l s, '\n' ∉ l → o.rd ('#' :: l ++ '\n' :: s) = o.rd s
  print : ∀ r rest, o.rd (o.wr r ++ rest) = some (r, rest)
  noMove : ∀ r, o.toParam r 0 0 = some r

/-- A name that can be written into a file: set, not empty, no white space, not a comment, shorter than 50
    characters. -/
def GoodName (x : Option CStr) : Prop :=
  ∃ w : Str, x = some (w.map Char.toNat) ∧ w ≠ [] ∧ (∀ c ∈ w, isspace c = false) ∧ w.head? ≠ some '#' ∧ w.length < 50

/-- The inputs whose dump can be read again. -/
structure Dumpable (o : Isl R) (inp : Input R) : Prop where
  /-- the union domain was built with the interface -/
  api : ∃ cs : List (Call R R Unit), run o.nout o.nout cs (alloc (o.np inp.context)) = .ok inp.ud
  /-- the context is about parameters only -/
  ctx : o.nout inp.context = 0
  /-- all domains have these parameters -/
  doms : ∀ a ∈ inp.ud.domains, o.np a.dom = o.np inp.context
  /-- scatterings fit to their domains -/
  scats : ∀ a ∈ inp.ud.domains, ∀ s, a.scat = some s → o.np s = o.np inp.context ∧ o.nin s = o.nout a.dom
  /-- there are scatterings for all domains or for none -/
  all : (∀ a ∈ inp.ud.domains, a.scat ≠ none) ∨ ∀ a ∈ inp.ud.domains, a.scat = none
  /-- the names that are set can be written, and the names of one type fit on a line -/
  names : ∀ t l, inp.ud.names t = some l → (∀ x ∈ l, GoodName x) ∧
    (l.map fun x => (x.getD []).length + 1).sum ≤ 1022
  /-- names of statements are in one line -/
  stmts : ∀ a ∈ inp.ud.domains, ∀ s, a.name = some s → '\n' ∉ s.map Char.ofNat
  /-- the number of statements is an `int` -/
  few : inp.ud.domains.length < 2 ^ 31

/-- A union domain made with the interface: its numbers of dimensions, and there is a name (or no name)
    for each dimension. -/
theorem api_wf (o : Isl R) {nb : Nat} : ∀ (cs : List (Call R R Unit)) (ud0 ud : UD R R Unit),
    run o.nout o.nout cs ud0 = .ok ud →
    (ud0.n .param = nb ∧ ud0.n .iter = largest (ud0.domains.map fun a => o.nout a.dom) ∧
      ud0.n .scat = largest (ud0.domains.filterMap fun a => a.scat.map o.nout) ∧
      ∀ t l, ud0.names t = some l → l.length = ud0.n t ∧ 0 < ud0.n t) →
    (ud.n .param = nb ∧ ud.n .iter = largest (ud.domains.map fun a => o.nout a.dom) ∧
      ud.n .scat = largest (ud.domains.filterMap fun a => a.scat.map o.nout) ∧
      ∀ t l, ud.names t = some l → l.length = ud.n t ∧ 0 < ud.n t) := by
  intro cs
  induction cs with
  | nil => intro ud0 ud h h0; simp only [run, Except.ok.injEq] at h; subst h; exact h0
  | cons c cs ih =>
    intro ud0 ud h ⟨h1, h2, h3, h4⟩
    simp only [run] at h
    cases hst : step o.nout o.nout ud0 c with
    | error e => rw [hst] at h; cases h
    | ok u =>
      rw [hst] at h
      refine ih u ud h ?_
      cases c with
      | add a =>
        simp only [step, addDomain] at hst
        split at hst
        · cases hst
        split at hst
        · cases hst
        rename_i hi hs
        simp only [Except.ok.injEq] at hst
        subst hst
        refine ⟨h1, ?_, ?_, ?_⟩
        · simp only [grow, ite_gt, List.map_append, List.map_cons, List.map_nil, largest_append, h2]
        · simp only [grow, List.filterMap_append, List.filterMap_cons, List.filterMap_nil]
          cases a.scat with
          | none => simpa using h3
          | some s => simp only [Option.map_some, largest_append, ite_gt, h3]
        · intro t l hl
          cases t with
          | param => exact h4 _ _ hl
          | iter => simp only at hl; rw [hl] at hi; simp at hi
          | scat => simp only at hl; rw [hl] at hs; simp at hs
      | setName ty i nm =>
        simp only [step, setName] at hst
        cases ty with
        | none => cases hst
        | some t =>
          dsimp only at hst
          split at hst
          · cases hst
          rename_i hr
          simp only [Except.ok.injEq] at hst
          subst hst
          refine ⟨h1, h2, h3, ?_⟩
          intro t' l hl
          simp only at hl ⊢
          by_cases ht : t' = t
          · subst ht
            rw [if_pos rfl] at hl
            simp only [Option.some.injEq] at hl
            subst hl
            refine ⟨?_, by omega⟩
            rw [List.length_set]
            cases hx : ud0.names t' with
            | none => simp
            | some l => simpa using (h4 t' l hx).1
          · rw [if_neg ht] at hl
            exact h4 t' l hl

theorem Dumpable.wf {o : Isl R} {inp : Input R} (h : Dumpable o inp) :
    inp.ud.n .param = o.np inp.context ∧ inp.ud.n .iter = largest (inp.ud.domains.map fun a => o.nout a.dom) ∧
      inp.ud.n .scat = largest (inp.ud.domains.filterMap fun a => a.scat.map o.nout) ∧
      ∀ t l, inp.ud.names t = some l → l.length = inp.ud.n t ∧ 0 < inp.ud.n t := by
  obtain ⟨cs, hcs⟩ := h.api
  exact api_wf o cs _ _ hcs ⟨rfl, rfl, rfl, by intro t l hl; simp [alloc] at hl⟩

/-- The words of a list of names. -/
def wordsOf (l : List (Option CStr)) : List Str := l.map fun x => (x.getD []).map Char.ofNat

theorem goodName_word {x : Option CStr} (h : GoodName x) : ∃ w : Str, x = some (w.map Char.toNat) ∧ printStr x = w ∧
    (x.getD []).map Char.ofNat = w ∧ w ≠ [] ∧ (∀ c ∈ w, isspace c = false) ∧ w.head? ≠ some '#' ∧ w.length < 50 := by
  obtain ⟨w, rfl, h1, h2, h3, h4⟩ := h
  have : (w.map Char.toNat).map Char.ofNat = w := by simp [Function.comp_def]
  exact ⟨w, rfl, by simpa [printStr] using this, by simpa using this, h1, h2, h3, h4⟩

theorem names_line (l : List (Option CStr)) (hl : ∀ x ∈ l, GoodName x) :
    words (l.flatMap fun x => printStr x ++ [' ']) = wordsOf l ∧ '\n' ∉ (l.flatMap fun x => printStr x ++ [' ']) ∧
    (l.flatMap fun x => printStr x ++ [' ']).length = (l.map fun x => (x.getD []).length + 1).sum ∧
    (∀ n ∈ wordsOf l, n.head? ≠ some '#' ∧ n.length < 50) := by
  induction l with
  | nil => simp [words_nil, wordsOf]
  | cons x l ih =>
    obtain ⟨i1, i2, i3, i4⟩ := ih (fun y hy => hl y (by simp [hy]))
    obtain ⟨w, e1, e2, e3, e4, e5, e6, e7⟩ := goodName_word (hl x (by simp))
    refine ⟨?_, ?_, ?_, ?_⟩
    · rw [List.flatMap_cons, e2, List.append_assoc, words_word w _ e4 (fun c hc => by simp [e5 c hc])
        (fun c s h => by simp at h; rw [← h.1]; decide)]
      rw [List.singleton_append, words_cons_space _ _ (by decide), i1]
      simp only [wordsOf, List.map_cons, e3]
    · rw [List.flatMap_cons, e2]
      simp only [List.mem_append, List.mem_singleton, not_or]
      refine ⟨⟨?_, by decide⟩, i2⟩
      intro h
      have := e5 _ h
      revert this; decide
    · rw [List.flatMap_cons, List.length_append, i3, e2, e1]
      simp
    · intro n hn
      simp only [wordsOf, List.map_cons, List.mem_cons] at hn
      rcases hn with rfl | hn
      · rw [e3]; exact ⟨e6, e7⟩
      · exact i4 n hn

theorem number_text (k : Nat) (t : Str) (ht : ∀ c, t.head? = some c → isdigit c = false) (hk : k < 2 ^ 31) :
    Number (printNat k ++ t) k := by
  refine ⟨[], t, ?_, by simp, ht, by omega, by omega⟩
  simp [printInt]

theorem silent_nil : Silent [] := by intro c hc; simp at hc

theorem good_nil : GoodLine [] := by constructor <;> simp

theorem good_small {l : Str} (h1 : l.all (· != '\n') = true) (h2 : l.length ≤ 1022) : GoodLine l := by
  refine ⟨?_, h2⟩
  intro h
  have := List.all_eq_true.1 h1 _ h
  simp at this

/-- A line of names is not blank and not a comment. -/
theorem names_data (l : List (Option CStr)) (hl : ∀ x ∈ l, GoodName x) (hne0 : l ≠ []) :
    isData (l.flatMap fun x => printStr x ++ [' ']) = true := by
  obtain ⟨i1, i2, i3, i4⟩ := names_line l hl
  have hne : wordsOf l ≠ [] := by
    intro h
    have : (wordsOf l).length = l.length := by simp [wordsOf]
    rw [h] at this
    exact hne0 (List.length_eq_zero_iff.1 this.symm)
  have hx : (l.flatMap fun x => printStr x ++ [' ']).dropWhile isspace ≠ [] := by
    intro h; rw [words_eq_nil _ h] at i1; exact hne i1.symm
  have hsp := words_split _ hx
  rw [i1] at hsp
  unfold isData
  simp only [Bool.and_eq_true, decide_eq_true_eq]
  refine ⟨hx, ?_⟩
  intro hh
  have := (i4 _ (by rw [hsp]; exact List.mem_cons_self)).1
  apply this
  cases hq : (l.flatMap fun x => printStr x ++ [' ']).dropWhile isspace with
  | nil => exact absurd hq hx
  | cons a s =>
    rw [hq] at hh
    simp only [List.head?_cons, Option.some.injEq] at hh
    subst hh
    rw [List.takeWhile_cons_of_pos (by decide)]
    rfl

/-- The names of one type in the dump. -/
theorem printNames_sec (ns : Option (List (Option CStr))) (what : Str) (nb : Nat) (hw : what.all (· != '\n') = true)
    (hw2 : what.length ≤ 100)
    (hn : ∀ l, ns = some l → l.length = nb ∧ 0 < nb ∧ (∀ x ∈ l, GoodName x) ∧
      (l.map fun x => (x.getD []).length + 1).sum ≤ 1022) :
    ∃ ls, printNames ns what = file ([] :: ls) ∧
      ∀ (pre : List Str) (nb' : Int), (∀ l ∈ pre, GoodLine l ∧ Silent l) → (ns ≠ none → nb' = nb) →
        NamesSec nb' (pre ++ ls) (ns.map wordsOf) := by
  have hgood : ∀ k : Nat, k < 10 → GoodLine (printNat k ++ (" # ".toList ++ what ++ " name(s)".toList)) := by
    intro k hk
    have e1 : (printNat k).all (· != '\n') = true ∧ (printNat k).length ≤ 10 := by
      interval_cases k <;> decide
    refine good_small ?_ ?_
    · simp only [List.all_append, e1.1, hw, Bool.true_and, Bool.and_true]; decide
    · simp only [List.length_append]
      have : " # ".toList.length = 3 := by decide
      have : " name(s)".toList.length = 8 := by decide
      omega
  have hnum : ∀ k : Nat, k < 10 → Number (printNat k ++ (" # ".toList ++ what ++ " name(s)".toList)) k := by
    intro k hk
    refine number_text k _ ?_ (by omega)
    intro c hc
    simp at hc
    subst hc; decide
  cases ns with
  | none =>
    refine ⟨[printNat 0 ++ (" # ".toList ++ what ++ " name(s)".toList)], ?_, ?_⟩
    · have e0 : printNat 0 = ['0'] := by decide
      simp [printNames, file, e0]
    · intro pre nb' hpre _
      exact .off hpre (hgood 0 (by omega)) (hnum 0 (by omega)) (.inr rfl)
  | some l =>
    obtain ⟨h1, h2, h3, h4⟩ := hn l rfl
    obtain ⟨i1, i2, i3, i4⟩ := names_line l h3
    refine ⟨[printNat 1 ++ (" # ".toList ++ what ++ " name(s)".toList), l.flatMap fun x => printStr x ++ [' ']], ?_, ?_⟩
    · have e0 : printNat 1 = ['1'] := by decide
      simp [printNames, file, e0]
    · intro pre nb' hpre hnb'
      have hnb2 := hnb' (by simp)
      subst hnb2
      have hd := names_data l h3 (by intro h; subst h; simp at h1; omega)
      have := NamesSec.on (nb := nb) (pre := pre) (cs := []) (extra := []) (ns := wordsOf l) (k := 1) hpre
        (hgood 1 (by omega)) (hnum 1 (by omega)) (by omega) (by simp) ⟨i2, by rw [i3]; exact h4⟩ hd
        (by rw [i1]; simp) i4 (by omega) (by simp [wordsOf, h1])
      simpa using this

theorem parses_comment {o : Isl R} (ho : IslText o) (l : Str) (hl : '\n' ∉ l) (r : R) :
    Parses o ('\n' :: ('#' :: l ++ '\n' :: o.wr r)) r := by
  intro rest
  have : '\n' :: ('#' :: l ++ '\n' :: o.wr r) ++ rest = '\n' :: ('#' :: l ++ '\n' :: (o.wr r ++ rest)) := by simp
  rw [this, ho.blank, ho.comment l _ hl, ho.print]

theorem digits_nl (k : Nat) : '\n' ∉ printNat k := by
  intro h
  have := (printNat_spec k).2.1 _ h
  revert this; decide

theorem stmt_nl {x : Option CStr} (h : ∀ s, x = some s → '\n' ∉ s.map Char.ofNat) : '\n' ∉ printStr x := by
  cases x with
  | none => decide
  | some s => exact h s rfl

theorem three_line : DataSec Three [[], "0 0 0 # For future options.".toList] := by
  refine DataSec.mk (pre := [[]]) (l := "0 0 0 # For future options.".toList) ?_ ?_ (by decide) ?_
  · intro l hl
    simp only [List.mem_singleton] at hl
    subst hl
    exact ⟨good_nil, by decide⟩
  · exact good_small (by decide) (by decide)
  · exact ⟨0, 0, 0, [], [' '], [' '], " # For future options.".toList, by decide +kernel, by decide, by decide, by decide⟩

theorem dumpDomains_text {o : Isl R} (ho : IslText o) (nb : Nat) : ∀ (as : List (Named R R Unit)) (i : Nat),
    (∀ a ∈ as, o.np a.dom = nb) → (∀ a ∈ as, ∀ s, a.name = some s → '\n' ∉ s.map Char.ofNat) →
    ∃ D, DomText o nb (as.map fun a => a.dom) D ∧ ∀ X, '\n' :: (dumpDomains o i as ++ X) = D ++ '\n' :: X
  | [], i, _, _ => ⟨[], .nil, fun X => by rw [show dumpDomains o i [] = [] from rfl]; rfl⟩
  | a :: as, i, h1, h2 => by
    obtain ⟨D, hD, hX⟩ := dumpDomains_text ho nb as (i + 1) (fun b hb => h1 b (by simp [hb])) (fun b hb => h2 b (by simp [hb]))
    let cm : Str := " Iteration domain of statement ".toList ++ printNat i ++ " (".toList ++ printStr a.name ++ ").".toList
    have hcm : '\n' ∉ cm := by
      have e1 := digits_nl i
      have e2 := stmt_nl (h2 a (by simp))
      have e3 : '\n' ∉ " Iteration domain of statement ".toList := by decide
      have e4 : '\n' ∉ " (".toList := by decide
      have e5 : '\n' ∉ ").".toList := by decide
      simp only [cm, List.mem_append, not_or]
      exact ⟨⟨⟨⟨e3, e1⟩, e4⟩, e2⟩, e5⟩
    have hdom : ParsesDom o nb ('\n' :: ('#' :: cm ++ '\n' :: o.wr a.dom)) a.dom :=
      ⟨a.dom, parses_comment ho cm hcm a.dom, by rw [if_pos (h1 a (by simp))]⟩
    refine ⟨('\n' :: ('#' :: cm ++ '\n' :: o.wr a.dom)) ++ (file [[], "0 0 0 # For future options.".toList] ++ D),
      DomText.cons hdom three_line hD, ?_⟩
    intro X
    have e1 : "# Iteration domain of statement ".toList = '#' :: " Iteration domain of statement ".toList := by decide
    have e2 : ").\n".toList = ").".toList ++ ['\n'] := by decide
    have e3 : "\n0 0 0 # For future options.\n\n".toList =
      file [[], "0 0 0 # For future options.".toList] ++ ['\n'] := by decide
    have e0 : dumpDomains o i (a :: as) = "# Iteration domain of statement ".toList ++ printNat i ++ " (".toList ++
      printStr a.name ++ ").\n".toList ++ o.wr a.dom ++ "\n0 0 0 # For future options.\n\n".toList ++
      dumpDomains o (i + 1) as := rfl
    rw [e0, e1, e2, e3]
    simp only [List.append_assoc, List.cons_append, List.nil_append, List.singleton_append, cm]
    rw [hX X]

theorem dumpScats_text {o : Isl R} (ho : IslText o) (nb : Nat) : ∀ (as : List (Named R R Unit)) (i : Nat),
    (∀ a ∈ as, o.np a.dom = nb) → (∀ a ∈ as, ∀ s, a.name = some s → '\n' ∉ s.map Char.ofNat) →
    (∀ a ∈ as, a.scat ≠ none) → (∀ a ∈ as, ∀ s, a.scat = some s → o.np s = nb ∧ o.nin s = o.nout a.dom) →
    ∃ t ss, dumpScats o i as = some t ∧ ScatText o (as.map fun a => a.dom) ss t ∧
      as.filterMap (fun a => a.scat.map o.nout) = ss.map o.nout ∧
      List.zipWith (fun d s => (⟨none, d, some s, ()⟩ : Named R R Unit)) (as.map fun a => a.dom) ss =
        as.map (fun a => { a with name := none })
  | [], i, _, _, _, _ => ⟨[], [], rfl, .nil, rfl, rfl⟩
  | a :: as, i, h1, h2, h3, h4 => by
    obtain ⟨t, ss, e1, e2, e3, e4⟩ := dumpScats_text ho nb as (i + 1) (fun b hb => h1 b (by simp [hb]))
      (fun b hb => h2 b (by simp [hb])) (fun b hb => h3 b (by simp [hb])) (fun b hb => h4 b (by simp [hb]))
    cases hs : a.scat with
    | none => exact absurd hs (h3 a (by simp))
    | some s =>
      obtain ⟨f1, f2⟩ := h4 a (by simp) s hs
      let cm : Str := " Scattering of statement ".toList ++ printNat i ++ " (".toList ++ printStr a.name ++ ").".toList
      have hcm : '\n' ∉ cm := by
        have e1 := digits_nl i
        have e2 := stmt_nl (h2 a (by simp))
        have e3 : '\n' ∉ " Scattering of statement ".toList := by decide
        have e4 : '\n' ∉ " (".toList := by decide
        have e5 : '\n' ∉ ").".toList := by decide
        simp only [cm, List.mem_append, not_or]
        exact ⟨⟨⟨⟨e3, e1⟩, e4⟩, e2⟩, e5⟩
      refine ⟨('\n' :: ('#' :: cm ++ '\n' :: o.wr s)) ++ t, s :: ss, ?_, ?_, ?_, ?_⟩
      · have g1 : "\n# Scattering of statement ".toList = '\n' :: '#' :: " Scattering of statement ".toList := by decide
        have g2 : ").\n".toList = ").".toList ++ ['\n'] := by decide
        rw [dumpScats, hs]
        dsimp only
        rw [e1, g1, g2]
        simp [cm]
      · refine .cons ⟨s, s, parses_comment ho cm hcm s, ?_, ?_⟩ e2
        · rw [if_pos (by rw [f1, h1 a (by simp)])]
        · rw [if_pos f2]
      · simp [hs, e3]
      · rw [List.map_cons, List.zipWith_cons_cons, e4, List.map_cons]
        obtain ⟨nm, d, sc, u⟩ := a
        simp only at hs
        subst hs
        rfl

/-- The lines before the context. -/
def headLines (l : Language) : List Str :=
  ["# CLooG -> CLooG".toList, "# This is an automatic dump of a CLooG input file from a CloogInput data".toList,
   "# structure.".toList, [], if l = .fortran then "# Language: FORTRAN".toList else "# Language: C".toList,
   if l = .fortran then ['f'] else ['c']]

theorem headLines_sec (l : Language) : DataSec (fun x => x.head? = some (if l = .fortran then 'f' else 'c')) (headLines l) := by
  have e : headLines l = ["# CLooG -> CLooG".toList,
     "# This is an automatic dump of a CLooG input file from a CloogInput data".toList, "# structure.".toList, [],
     if l = .fortran then "# Language: FORTRAN".toList else "# Language: C".toList] ++
     [if l = .fortran then ['f'] else ['c']] := rfl
  rw [e]
  refine .mk ?_ ?_ ?_ ?_
  · have : ∀ x ∈ ["# CLooG -> CLooG".toList,
      "# This is an automatic dump of a CLooG input file from a CloogInput data".toList, "# structure.".toList, [],
      if l = .fortran then "# Language: FORTRAN".toList else "# Language: C".toList],
      x.all (· != '\n') = true ∧ x.length ≤ 1022 ∧ isData x = false := by
      cases l <;> decide +kernel
    intro x hx
    obtain ⟨a, b, c⟩ := this x hx
    exact ⟨good_small a b, c⟩
  · cases l <;> exact good_small (by decide) (by decide)
  · cases l <;> decide
  · cases l <;> rfl

/-- What is kept of the names: everything if they can be written. -/
theorem wordsOf_names {ns : Option (List (Option CStr))} (h : ∀ l, ns = some l → ∀ x ∈ l, GoodName x) :
    ((ns.map wordsOf).map fun l => l.map fun w => some (w.map Char.toNat)) = ns := by
  cases ns with
  | none => rfl
  | some l =>
    simp only [Option.map_some, Option.some.injEq, wordsOf, List.map_map]
    conv_rhs => rw [← List.map_id l]
    apply List.map_congr_left
    intro x hx
    obtain ⟨w, e1, e2, e3, -⟩ := goodName_word (h l rfl x hx)
    show some (((x.getD []).map Char.ofNat).map Char.toNat) = x
    rw [e3, e1]

theorem scat_text (H a n b t : Str) (N : List Str) :
    H ++ (a ++ ['\n']) ++ n ++ (b ++ ['\n']) ++ t ++ file ([] :: N) =
      H ++ (file ([a] ++ [n ++ b]) ++ (t ++ (file ([[]] ++ N) ++ []))) := by
  simp [file]

/-- **C60, dump and read.**  The dump of an input built with the interface can be read, and gives the same
    language, context, numbers of dimensions, names of parameters, iterators and scattering dimensions,
    domains and scatterings.  Only the names of the statements are lost. -/
theorem C60_dump_read_partial {o : Isl R} (ho : IslText o) {inp : Input R} (h : Dumpable o inp) :
    ∃ text rest, dump o inp = some text ∧
      readInput o text = .ok (⟨inp.language, inp.context,
        ⟨inp.ud.n, inp.ud.names, inp.ud.domains.map fun a => { a with name := none }⟩⟩, rest) := by
  obtain ⟨w1, w2, w3, w4⟩ := h.wf
  have hns : ∀ t l, inp.ud.names t = some l → l.length = inp.ud.n t ∧ 0 < inp.ud.n t ∧ (∀ x ∈ l, GoodName x) ∧
      (l.map fun x => (x.getD []).length + 1).sum ≤ 1022 :=
    fun t l hl => ⟨(w4 t l hl).1, (w4 t l hl).2, h.names t l hl⟩
  obtain ⟨P, eP, hP⟩ := printNames_sec (inp.ud.names .param) "Parameter".toList _ (by decide) (by decide) (hns .param)
  obtain ⟨I, eI, hI⟩ := printNames_sec (inp.ud.names .iter) "Iterator".toList _ (by decide) (by decide) (hns .iter)
  obtain ⟨D, hD, eD⟩ := dumpDomains_text ho (o.np inp.context) inp.ud.domains 1 h.doms h.stmts
  have hsil : ∀ l ∈ ([[], []] : List Str), GoodLine l ∧ Silent l := by
    intro l hl
    have : l = [] := by simpa using hl
    subst this
    exact ⟨good_nil, silent_nil⟩
  have hsil1 : ∀ l ∈ ([[]] : List Str), GoodLine l ∧ Silent l := fun l hl => hsil l (by simpa using hl)
  -- the head
  have hC : DataSec (fun l => Number l (inp.ud.domains.map fun a => a.dom).length)
      [[], "# Statement number:".toList, printNat inp.ud.domains.length] := by
    have hnum : Number (printNat inp.ud.domains.length) (inp.ud.domains.length : Int) := by
      have := number_text inp.ud.domains.length [] (by simp) h.few
      simpa using this
    refine DataSec.mk (pre := [[], "# Statement number:".toList]) ?_ ?_ hnum.data (by simpa using hnum)
    · intro l hl
      simp only [List.mem_cons, List.not_mem_nil, or_false] at hl
      rcases hl with rfl | rfl
      · exact ⟨good_nil, by decide⟩
      · exact ⟨good_small (by decide) (by decide), by decide⟩
    · exact ⟨digits_nl _, by have := printNat_length inp.ud.domains.length (by have := h.few; omega); omega⟩
  have hctx : Parses o ("\n# Context:\n".toList ++ o.wr inp.context) inp.context := by
    have := parses_comment ho " Context:".toList (by decide) inp.context
    exact this
  have hhead : ∀ S, dumpHead o inp ++ S = file (headLines inp.language) ++ (("\n# Context:\n".toList ++ o.wr inp.context) ++
      (file ([[]] ++ P) ++ (file [[], "# Statement number:".toList, printNat inp.ud.domains.length] ++
        (D ++ (file ([[], []] ++ I) ++ S))))) := by
    intro S
    have e1 : "# CLooG -> CLooG\n".toList ++
        "# This is an automatic dump of a CLooG input file from a CloogInput data\n".toList ++ "# structure.\n\n".toList ++
        dumpLanguage inp.language ++ "# Context:\n".toList =
        file (headLines inp.language) ++ "\n# Context:\n".toList := by
      cases inp.language <;> decide +kernel
    have e2 : "\n# Statement number:\n".toList = '\n' :: ("# Statement number:".toList ++ ['\n']) := by decide
    have e3 : "\n\n".toList = ['\n', '\n'] := by decide
    unfold dumpHead
    rw [e1, eP, eI, e2, e3]
    have e4 := eD (file ([] :: I) ++ S)
    simp only [List.append_assoc, List.cons_append, List.nil_append, file_cons] at e4 ⊢
    rw [show ∀ X Y : Str, X ++ ('\n' :: '\n' :: Y) = X ++ ('\n' :: ('\n' :: Y)) from fun _ _ => rfl, e4]
    simp [file]
  have hnoMove : o.toParam inp.context 0 (o.nout inp.context) = some inp.context := by
    rw [h.ctx]; exact ho.noMove _
  have hP' : NamesSec (o.np inp.context) ([[]] ++ P) ((inp.ud.names .param).map wordsOf) := by
    rw [← w1]; exact hP [[]] _ hsil1 (fun _ => rfl)
  have hI' : NamesSec (if (inp.ud.domains.map fun a => a.dom) = [] then (-1 : Int) else
      ((largest ((inp.ud.domains.map fun a => a.dom).map o.nout) : Nat) : Int)) ([[], []] ++ I)
      ((inp.ud.names .iter).map wordsOf) := by
    have e : (inp.ud.domains.map fun a => a.dom).map o.nout = inp.ud.domains.map fun a => o.nout a.dom := by
      simp [Function.comp_def]
    rw [e, ← w2]
    refine hI [[], []] _ hsil ?_
    intro hne
    rw [if_neg]
    intro hd
    apply hne
    have h0 : inp.ud.n .iter = 0 := by
      rw [w2, List.map_eq_nil_iff.1 hd]; rfl
    cases hx : inp.ud.names .iter with
    | none => rfl
    | some l => have := (w4 _ l hx).2; omega
  have hnames : ∀ t, ((inp.ud.names t).map wordsOf).map (fun l => l.map fun w => some (w.map Char.toNat)) = inp.ud.names t :=
    fun t => wordsOf_names (fun l hl => (h.names t l hl).1)
  have hno : (∀ a ∈ inp.ud.domains, a.scat = none) → ∃ rest,
      readInput o (dumpHead o inp ++ "# No scattering functions.\n0\n\n".toList) = .ok (⟨inp.language, inp.context,
        ⟨inp.ud.n, inp.ud.names, inp.ud.domains.map fun a => { a with name := none }⟩⟩, rest) := by
    intro hall
    have hsc : inp.ud.n .scat = 0 := by
      rw [w3]
      have : inp.ud.domains.filterMap (fun a => a.scat.map o.nout) = [] := by
        rw [List.filterMap_eq_nil_iff]
        intro a ha; rw [hall a ha]; rfl
      rw [this]; rfl
    have hsn : inp.ud.names .scat = none := by
      cases hx : inp.ud.names .scat with
      | none => rfl
      | some l => have := (w4 _ l hx).2; omega
    have hS : ScatSec o (inp.ud.domains.map fun a => a.dom) none none "# No scattering functions.\n0\n\n".toList := by
      have := ScatSec.none (o := o) (ds := inp.ud.domains.map fun a => a.dom)
        (pre := ["# No scattering functions.".toList]) (l := printNat 0) (rest := ['\n']) (by
          intro l hl
          simp only [List.mem_singleton] at hl
          subst hl
          exact ⟨good_small (by decide) (by decide), by
            intro c hc
            have : c = '#' := by simpa [List.dropWhile, show isspace '#' = false by decide] using hc.symm
            subst this; decide⟩) (good_small (by decide) (by decide))
        (by have := number_text 0 [] (by simp) (by omega); simpa using this)
      have e : file (["# No scattering functions.".toList] ++ [printNat 0]) ++ ['\n'] =
        "# No scattering functions.\n0\n\n".toList := by decide
      rw [e] at this
      exact this
    obtain ⟨rest, hr⟩ := C60_read o (headLines_sec inp.language) hctx hnoMove hP' hC hD hI' hS
    refine ⟨rest, ?_⟩
    rw [hhead, hr]
    congr 2
    congr 1
    · cases inp.language <;> rfl
    · unfold union
      congr 1
      · funext t
        cases t with
        | param => exact w1.symm
        | iter => rw [w2]; simp [Function.comp_def]
        | scat => rw [hsc]; rfl
      · funext t
        cases t with
        | param => exact hnames .param
        | iter => exact hnames .iter
        | scat => rw [hsn]; rfl
      · simp only [List.map_map]
        apply List.map_congr_left
        intro a ha
        have := hall a ha
        obtain ⟨nm, d, sc, u⟩ := a
        simp only at this
        subst this
        rfl
  unfold dump
  cases hdl : inp.ud.domains with
  | nil =>
    obtain ⟨rest, hr⟩ := hno (by rw [hdl]; simp)
    rw [hdl] at hr
    exact ⟨_, rest, rfl, hr⟩
  | cons a as =>
    dsimp only
    cases hsa : a.scat with
    | none =>
      have hall : ∀ a ∈ inp.ud.domains, a.scat = none := by
        rcases h.all with h' | h'
        · exact absurd hsa (h' a (by rw [hdl]; simp))
        · exact h'
      obtain ⟨rest, hr⟩ := hno hall
      rw [hdl] at hr
      exact ⟨_, rest, rfl, hr⟩
    | some s =>
      have hall : ∀ a ∈ inp.ud.domains, a.scat ≠ none := by
        rcases h.all with h' | h'
        · exact h'
        · have := h' a (by rw [hdl]; simp)
          rw [hsa] at this; cases this
      obtain ⟨t, ss, e1, e2, e3, e4⟩ := dumpScats_text ho (o.np inp.context) inp.ud.domains 1 h.doms h.stmts hall h.scats
      obtain ⟨N, eN, hN⟩ := printNames_sec (inp.ud.names .scat) "Scattering dimension".toList _ (by decide) (by decide) (hns .scat)
      have hN' := hN [[]] _ hsil1 (fun _ => rfl)
      rw [w3, e3] at hN'
      have hsil2 : ∀ l ∈ ["# --------------------- SCATTERING --------------------".toList], GoodLine l ∧ Silent l := by
        intro l hl
        simp only [List.mem_singleton] at hl
        subst hl
        refine ⟨good_small (by decide) (by decide), ?_⟩
        intro c hc
        have : c = '#' := by simpa [List.dropWhile, show isspace '#' = false by decide] using hc.symm
        subst this; decide
      have hgl : GoodLine (printNat inp.ud.domains.length ++ " # Scattering functions".toList) := by
        refine ⟨?_, ?_⟩
        · simp only [List.mem_append, not_or]
          exact ⟨digits_nl _, by decide⟩
        · have := printNat_length inp.ud.domains.length (by have := h.few; omega)
          have h2 : " # Scattering functions".toList.length = 23 := by decide
          rw [List.length_append]; omega
      have hnum := number_text inp.ud.domains.length " # Scattering functions".toList
        (by intro c hc; have : c = ' ' := by simpa using hc.symm
            subst this; decide) h.few
      have hS := ScatSec.some (o := o) (ds := inp.ud.domains.map fun a => a.dom) (rest := [])
        hsil2 hgl (by simpa using hnum) (by simp [hdl]) e2 hN'
      obtain ⟨rest, hr⟩ := C60_read o (headLines_sec inp.language) hctx hnoMove hP' hC hD hI' hS
      rw [← hhead] at hr
      have hlang : (if (if inp.language = .fortran then 'f' else 'c') = 'f' then Language.fortran else .c) = inp.language := by
        cases inp.language <;> rfl
      have hu : union o (o.np inp.context) (inp.ud.domains.map fun a => a.dom) (some ss) (fun t => match t with
          | .param => (inp.ud.names .param).map wordsOf
          | .iter => (inp.ud.names .iter).map wordsOf
          | .scat => (inp.ud.names .scat).map wordsOf) =
          ⟨inp.ud.n, inp.ud.names, inp.ud.domains.map fun a => { a with name := none }⟩ := by
        simp only [union, UD.mk.injEq]
        refine ⟨?_, ?_, e4⟩
        · funext t
          cases t with
          | param => exact w1.symm
          | iter => rw [w2]; simp [Function.comp_def]
          | scat => rw [w3, e3]; rfl
        · funext t
          cases t with
          | param => exact hnames .param
          | iter => exact hnames .iter
          | scat => exact hnames .scat
      rw [hlang, hu, hdl] at hr
      refine ⟨_, rest, ?_, hr⟩
      have g1 : "# --------------------- SCATTERING --------------------\n".toList =
        "# --------------------- SCATTERING --------------------".toList ++ ['\n'] := by decide +kernel
      have g2 : " # Scattering functions\n".toList = " # Scattering functions".toList ++ ['\n'] := by decide +kernel
      rw [hdl] at e1
      rw [e1, eN, g1, g2, Option.map_some, scat_text]

end Verif.Props.Input
