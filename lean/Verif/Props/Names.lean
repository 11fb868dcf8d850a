import Verif.Model.Names
import Mathlib.Data.List.Nodup
import Mathlib.Data.List.Range

/-!
# C32 and C33: default names, names of levels
-/

namespace Verif.Props.Names

open Verif.Names

/-! ## C32: default names -/

theorem charName_inj {a b : Int} : charName a = charName b ↔ a % 256 = b % 256 := by
  unfold charName
  dsimp only
  split_ifs with h1 h2 h2
  · simp; omega
  · simp; omega
  · simp; omega
  · simp; omega

theorem charName_length (a : Int) : (charName a).length ≤ 1 := by
  unfold charName
  dsimp only
  split_ifs <;> simp

theorem decDigits_ne_nil (fuel n : Nat) : decDigits (fuel + 1) n ≠ [] := by
  unfold decDigits
  split_ifs <;> simp

/-- The number written by a digit list. -/
def digitsNat (s : CStr) : Nat := s.foldl (fun a c => a * 10 + (c - 48)) 0

theorem digitsNat_decDigits (fuel n : Nat) (h : n < fuel) : digitsNat (decDigits fuel n) = n := by
  induction fuel generalizing n with
  | zero => omega
  | succ fuel ih =>
    unfold decDigits
    split_ifs with h1
    · simp [digitsNat]
    · have := ih (n / 10) (by omega)
      unfold digitsNat at this ⊢
      rw [List.foldl_append, this]
      simp
      omega

theorem numName_inj {p : CStr} {a b : Nat} (h : numName p a = numName p b) : a = b := by
  unfold numName at h
  have h' := List.append_cancel_left h
  rw [← digitsNat_decDigits (a + 1) a (by omega), h', digitsNat_decDigits (b + 1) b (by omega)]

theorem numName_length (c : Nat) (n : Nat) : 2 ≤ (numName [c] n).length := by
  unfold numName
  have := decDigits_ne_nil n n
  cases h : decDigits (n + 1) n with
  | nil => exact absurd h this
  | cons a l => simp

theorem scat_nodup (nb : Nat) (f : Int) : (generateItems nb (some [99]) f).Nodup := by
  unfold generateItems
  refine List.Nodup.map ?_ List.nodup_range
  intro a b h
  have := numName_inj h
  omega

theorem chars_nodup_iff (nb : Nat) (first : Int) :
    (generateItems nb none first).Nodup ↔ nb ≤ 256 := by
  unfold generateItems
  constructor
  · intro h
    by_contra hc
    have h1 := List.inj_on_of_nodup_map h (x := 0) (y := 256) (by simp; omega) (by simp; omega)
      (charName_inj.2 (by omega))
    omega
  · intro h
    refine List.Nodup.map_on ?_ List.nodup_range
    intro a ha b hb hab
    have := charName_inj.1 hab
    simp only [List.mem_range] at ha hb
    omega

theorem mem_chars {nb : Nat} {first : Int} {s : CStr} :
    s ∈ generateItems nb none first ↔ ∃ i : Nat, i < nb ∧ s = charName (first + i) := by
  unfold generateItems
  simp only [List.mem_map, List.mem_range]
  constructor
  · rintro ⟨i, hi, rfl⟩; exact ⟨i, hi, rfl⟩
  · rintro ⟨i, hi, rfl⟩; exact ⟨i, hi, rfl⟩

/-- All names of a table. -/
def allNames (t : Table) : List CStr := t.parameters ++ t.iterators ++ t.scattering

/-- **C32, exact extent.** The default names are pairwise distinct exactly when the single letter
    names of parameters and iterators do not run into each other: with at most 28 parameters and
    228 iterators, or without iterators (parameters) and at most 256 parameters (iterators).  The
    scattering names never clash. -/
theorem C32_distinct_iff (nbPar nbIter nbScat : Nat) :
    (allNames (defaultTable nbPar nbIter nbScat)).Nodup ↔
      (nbPar ≤ 28 ∧ nbIter ≤ 228) ∨ (nbPar = 0 ∧ nbIter ≤ 256) ∨ (nbIter = 0 ∧ nbPar ≤ 256) := by
  have hscat : ∀ s ∈ generateItems nbPar none firstParameter ++
      generateItems nbIter none firstIterator, s ∉ generateItems nbScat (some [99]) (-1) := by
    intro s hs hs'
    have h1 : s.length ≤ 1 := by
      rcases List.mem_append.1 hs with h | h <;> obtain ⟨i, _, rfl⟩ := mem_chars.1 h <;>
        exact charName_length _
    obtain ⟨i, _, rfl⟩ := List.mem_map.1 hs'
    have := numName_length 99 (1 + i)
    dsimp only at h1
    omega
  unfold allNames defaultTable
  dsimp only
  rw [List.nodup_append, List.nodup_append, chars_nodup_iff, chars_nodup_iff]
  have hd : (∀ a ∈ generateItems nbPar none firstParameter,
      ∀ b ∈ generateItems nbIter none firstIterator, a ≠ b) ↔
      ∀ i j : Nat, i < nbPar → j < nbIter → (77 + (i : Int)) % 256 ≠ (105 + (j : Int)) % 256 := by
    constructor
    · intro h i j hi hj he
      exact h _ (mem_chars.2 ⟨i, hi, rfl⟩) _ (mem_chars.2 ⟨j, hj, rfl⟩)
        (charName_inj.2 (by simpa [firstParameter, firstIterator] using he))
    · intro h a ha b hb hab
      obtain ⟨i, hi, rfl⟩ := mem_chars.1 ha
      obtain ⟨j, hj, rfl⟩ := mem_chars.1 hb
      exact h i j hi hj (by simpa [firstParameter, firstIterator] using charName_inj.1 hab)
  rw [hd]
  constructor
  · rintro ⟨⟨h1, h2, h3⟩, _⟩
    by_cases hp : nbPar = 0
    · exact Or.inr (Or.inl ⟨hp, h2⟩)
    by_cases hi : nbIter = 0
    · exact Or.inr (Or.inr ⟨hi, h1⟩)
    refine Or.inl ⟨?_, ?_⟩
    · by_contra hc
      exact h3 28 0 (by omega) (by omega) (by decide)
    · by_contra hc
      exact h3 0 228 (by omega) (by omega) (by decide)
  · intro h
    refine ⟨⟨by omega, by omega, ?_⟩, scat_nodup _ _, ?_⟩
    · intro i j hi hj he
      omega
    · intro a ha b hb hab
      exact hscat a ha (hab ▸ hb)

/-- **C32 is false of the code** for many parameters: with 29 parameters the last one is called like
    the first iterator. -/
theorem C32_clash : ¬ ∀ nbPar nbIter nbScat,
    (allNames (defaultTable nbPar nbIter nbScat)).Nodup := by
  intro h
  have := (C32_distinct_iff 29 1 0).1 (h 29 1 0)
  omega

/-- **C32, positive part**: for at most 28 parameters and 228 iterators. -/
theorem C32_default_names_partial (nbPar nbIter nbScat : Nat) (hp : nbPar ≤ 28)
    (hi : nbIter ≤ 228) : (allNames (defaultTable nbPar nbIter nbScat)).Nodup :=
  (C32_distinct_iff nbPar nbIter nbScat).2 (Or.inl ⟨hp, hi⟩)

/-- Letters of C identifiers. -/
def isLetter (c : Nat) : Prop := (65 ≤ c ∧ c ≤ 90) ∨ (97 ≤ c ∧ c ≤ 122)

/-- A name that C accepts (as far as default names go): a letter, followed by digits. -/
def isIdent (s : CStr) : Prop :=
  ∃ c r, s = c :: r ∧ isLetter c ∧ ∀ d ∈ r, 48 ≤ d ∧ d ≤ 57

theorem decDigits_digits (fuel n : Nat) : ∀ d ∈ decDigits fuel n, 48 ≤ d ∧ d ≤ 57 := by
  induction fuel generalizing n with
  | zero => simp [decDigits]
  | succ fuel ih =>
    unfold decDigits
    split_ifs with h
    · intro d hd
      simp at hd
      omega
    · intro d hd
      rcases List.mem_append.1 hd with h' | h'
      · exact ih _ d h'
      · simp at h'
        omega

theorem charName_ident (a : Int) (ha : 0 < a) (hb : a < 256) :
    isIdent (charName a) ↔ isLetter a.toNat := by
  have h1 : charName a = [a.toNat] := by
    unfold charName
    dsimp only
    have : (a % 256).toNat = a.toNat := by omega
    rw [this, if_neg (by omega)]
  rw [h1]
  constructor
  · rintro ⟨c, r, h, hl, _⟩
    simp only [List.cons.injEq] at h
    rw [h.1]
    exact hl
  · intro h
    exact ⟨_, _, rfl, h, by simp⟩

/-- The default names are identifiers of the target language exactly with at most 14 parameters
    ('M' to 'Z') and 18 iterators ('i' to 'z'); scattering names always are. -/
theorem C32_identifiers_iff (nbPar nbIter nbScat : Nat) :
    (∀ s ∈ allNames (defaultTable nbPar nbIter nbScat), isIdent s) ↔ nbPar ≤ 14 ∧ nbIter ≤ 18 := by
  unfold allNames defaultTable
  constructor
  · intro h
    constructor
    · by_contra hc
      have h1 := h (charName (firstParameter + (14 : Nat))) (by
        simp only [List.mem_append]
        exact Or.inl (Or.inl (mem_chars.2 ⟨14, by omega, rfl⟩)))
      rw [charName_ident _ (by decide) (by decide)] at h1
      unfold isLetter firstParameter at h1
      omega
    · by_contra hc
      have h1 := h (charName (firstIterator + (18 : Nat))) (by
        simp only [List.mem_append]
        exact Or.inl (Or.inr (mem_chars.2 ⟨18, by omega, rfl⟩)))
      rw [charName_ident _ (by decide) (by decide)] at h1
      unfold isLetter firstIterator at h1
      omega
  · rintro ⟨h1, h2⟩ s hs
    simp only [List.mem_append] at hs
    rcases hs with (hs | hs) | hs
    · obtain ⟨i, hi, rfl⟩ := mem_chars.1 hs
      rw [charName_ident _ (by unfold firstParameter; omega) (by unfold firstParameter; omega)]
      unfold isLetter firstParameter
      omega
    · obtain ⟨i, hi, rfl⟩ := mem_chars.1 hs
      rw [charName_ident _ (by unfold firstIterator; omega) (by unfold firstIterator; omega)]
      unfold isLetter firstIterator
      omega
    · obtain ⟨i, _, rfl⟩ := List.mem_map.1 hs
      exact ⟨99, _, rfl, by unfold isLetter; omega, decDigits_digits _ _⟩

/-- Two parameters M, N, two iterators i, j, and the scattering dimensions c1 ... c10. -/
example : allNames (defaultTable 2 2 10) =
    [[77], [78], [105], [106], [99, 49], [99, 50], [99, 51], [99, 52], [99, 53], [99, 54],
     [99, 55], [99, 56], [99, 57], [99, 49, 48]] := by decide

/-! ## C33: names of levels -/

/-- Levels `1 .. nb_scattering` have the scattering names and the following levels the iterator
    names, in order, so the names of levels `1, 2, ...` are the concatenation of the two lists. -/
theorem C33_name_at_level (t : Table) (level : Nat) (h : 1 ≤ level) :
    nameAtLevel t level = (t.scattering ++ t.iterators)[level - 1]? := by
  unfold nameAtLevel
  rw [if_neg (by omega)]
  split_ifs with h1
  · rw [List.getElem?_append_left (by omega)]
  · rw [List.getElem?_append_right (by omega)]
    congr 1
    omega

theorem scalarizeGo_spec (sd : List Int) (ns : List CStr) :
    scalarizeGo sd ns =
      (((sd.zip ns).filter (fun p => p.1 ≠ 0)).map Prod.snd,
       ((sd.zip ns).filter (fun p => p.1 = 0)).map Prod.snd) := by
  induction sd generalizing ns with
  | nil => rfl
  | cons s sd ih =>
    cases ns with
    | nil => rfl
    | cons n ns =>
      unfold scalarizeGo
      rw [ih]
      dsimp only
      by_cases h : s = 0
      · simp [h]
      · simp [h]

/-- `cloog_names_scalarize` moves exactly the names of the scalar dimensions to the scalar names and
    keeps the others, both in their order; iterators and parameters are untouched, and the fresh
    table had no scalar names. -/
theorem C33_scalarize (t : Table) (sd : List Int) (hl : sd.length = t.scattering.length)
    (h0 : t.scalars = []) :
    (scalarize t sd).scattering = ((sd.zip t.scattering).filter (fun p => p.1 = 0)).map Prod.snd ∧
    (scalarize t sd).scalars = ((sd.zip t.scattering).filter (fun p => p.1 ≠ 0)).map Prod.snd ∧
    (scalarize t sd).iterators = t.iterators ∧ (scalarize t sd).parameters = t.parameters := by
  unfold scalarize
  split_ifs with h
  · simp only [List.all_eq_true, decide_eq_true_eq] at h
    have hz : ∀ p ∈ sd.zip t.scattering, p.1 = 0 := fun p hp => h _ (List.of_mem_zip hp).1
    refine ⟨?_, ?_, rfl, rfl⟩
    · rw [List.filter_eq_self.2 (by simpa using hz), List.map_snd_zip (by omega)]
    · rw [List.filter_eq_nil_iff.2 (by simpa using hz), h0]
      rfl
  · rw [scalarizeGo_spec]
    exact ⟨rfl, rfl, rfl, rfl⟩

/-- The `k`-th loop below the non-scalar scattering dimensions keeps its name: the non-scalar
    dimension number `i` (counting all dimensions) is found at level `1 + ` the number of
    non-scalar dimensions before it. -/
theorem C33_scalarized_level (t : Table) (sd : List Int) (hl : sd.length = t.scattering.length)
    (h0 : t.scalars = []) (i : Nat) (hi : i < sd.length) (hz : sd[i] = 0) :
    nameAtLevel (scalarize t sd) (1 + ((sd.take i).filter (fun s => s = 0)).length) =
      t.scattering[i]? := by
  rw [C33_name_at_level _ _ (by omega), (C33_scalarize t sd hl h0).1]
  have hlt : ((sd.take i).filter (fun s => s = 0)).length <
      (((sd.zip t.scattering).filter (fun p => p.1 = 0)).map Prod.snd).length ∧
      (((sd.zip t.scattering).filter (fun p => p.1 = 0)).map Prod.snd)[
        ((sd.take i).filter (fun s => s = 0)).length]? = t.scattering[i]? := by
    generalize t.scattering = ns at hl ⊢
    clear h0
    induction sd generalizing ns i with
    | nil => simp at hi
    | cons s sd ih =>
      cases ns with
      | nil => simp at hl
      | cons n ns =>
        cases i with
        | zero =>
          simp only [List.getElem_cons_zero] at hz
          simp [hz]
        | succ i =>
          simp only [List.getElem_cons_succ] at hz
          have := ih i (by simpa using hi) hz ns (by simpa using hl)
          by_cases hs : s = 0
          · simpa [hs] using this
          · simpa [hs] using this
  rw [Nat.add_sub_cancel_left, List.getElem?_append_left hlt.1]
  exact hlt.2

/-- Dimensions c1 and c3 of four are scalar: levels 1 and 2 are c2 and c4, level 3 is i. -/
example :
    let t := scalarize (defaultTable 1 2 4) [1, 0, 1, 0]
    [nameAtLevel t 1, nameAtLevel t 2, nameAtLevel t 3, nameAtLevel t 5] =
      [some [99, 50], some [99, 52], some [105], none] := by decide

end Verif.Props.Names
