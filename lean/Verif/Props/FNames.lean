import Verif.Props.Names

/-!
# C76: default names in Fortran, which does not distinguish case
-/

namespace Verif.Props.FNames
open Verif.Names Verif.Props.Names

/-- A letter in lower case. -/
def foldC (c : Nat) : Nat := if 65 ≤ c ∧ c ≤ 90 then c + 32 else c

/-- A name without the case of its letters. -/
def foldS (s : CStr) : CStr := s.map foldC

theorem foldS_length (s : CStr) : (foldS s).length = s.length := by simp [foldS]

theorem fold_par {i : Nat} (h : i < 14) : foldS (charName (firstParameter + i)) = [109 + i] := by
  have h1 : ((77 + (i : Int)) % 256).toNat = 77 + i := by omega
  unfold charName firstParameter
  dsimp only
  rw [h1, if_neg (by omega)]
  simp only [foldS, List.map_cons, List.map_nil, foldC]
  rw [if_pos (by omega)]
  congr 1
  omega

theorem fold_iter {i : Nat} (h : i < 18) : foldS (charName (firstIterator + i)) = [105 + i] := by
  have h1 : ((105 + (i : Int)) % 256).toNat = 105 + i := by omega
  unfold charName firstIterator
  dsimp only
  rw [h1, if_neg (by omega)]
  simp only [foldS, List.map_cons, List.map_nil, foldC]
  rw [if_neg (by omega)]

/-- Digits and the letter `c` are not changed. -/
theorem fold_scat (n : Nat) : foldS (numName [99] n) = numName [99] n := by
  have : ∀ l : CStr, (∀ d ∈ l, 48 ≤ d ∧ d ≤ 57) → l.map foldC = l := by
    intro l
    induction l with
    | nil => intro _; rfl
    | cons a l ih =>
      intro h
      have ha := h a (by simp)
      rw [List.map_cons, ih (fun d hd => h d (by simp [hd]))]
      unfold foldC
      rw [if_neg (by omega)]
  unfold foldS numName
  rw [List.map_append, this _ (decDigits_digits _ _)]
  rfl

theorem fold_pars {n : Nat} (h : n ≤ 14) : (generateItems n none firstParameter).map foldS =
    (List.range n).map fun i => [109 + i] := by
  unfold generateItems
  rw [List.map_map]
  exact List.map_congr_left fun i hi => fold_par (by have := List.mem_range.1 hi; omega)

theorem fold_iters {n : Nat} (h : n ≤ 18) : (generateItems n none firstIterator).map foldS =
    (List.range n).map fun i => [105 + i] := by
  unfold generateItems
  rw [List.map_map]
  exact List.map_congr_left fun i hi => fold_iter (by have := List.mem_range.1 hi; omega)

theorem fold_scats (n : Nat) : (generateItems n (some [99]) (-1)).map foldS = generateItems n (some [99]) (-1) := by
  unfold generateItems
  rw [List.map_map]
  exact List.map_congr_left fun i _ => fold_scat (1 + i)

/-- Where default names are identifiers at all (C32), they stay pairwise distinct without the case of the
letters exactly if there is no parameter or there are at most four iterators. -/
theorem C76_distinct_iff (nbPar nbIter nbScat : Nat) (hp : nbPar ≤ 14) (hi : nbIter ≤ 18) :
    ((Names.allNames (defaultTable nbPar nbIter nbScat)).map foldS).Nodup ↔ nbPar = 0 ∨ nbIter ≤ 4 := by
  unfold Names.allNames defaultTable
  dsimp only
  rw [List.map_append, List.map_append, fold_pars hp, fold_iters hi, fold_scats, List.nodup_append,
    List.nodup_append]
  have n1 : ((List.range nbPar).map fun i => [109 + i]).Nodup :=
    List.Nodup.map (fun a b h => by simpa using h) List.nodup_range
  have n2 : ((List.range nbIter).map fun i => [105 + i]).Nodup :=
    List.Nodup.map (fun a b h => by simpa using h) List.nodup_range
  constructor
  · rintro ⟨⟨_, _, h⟩, _⟩
    by_contra hc
    exact h [109] (List.mem_map.2 ⟨0, List.mem_range.2 (by omega), rfl⟩) [109]
      (List.mem_map.2 ⟨4, List.mem_range.2 (by omega), rfl⟩) rfl
  · intro h
    refine ⟨⟨n1, n2, ?_⟩, scat_nodup _ _, ?_⟩
    · intro a ha b hb hab
      obtain ⟨i, hi', rfl⟩ := List.mem_map.1 ha
      obtain ⟨j, hj, rfl⟩ := List.mem_map.1 hb
      simp only [List.mem_range] at hi' hj
      simp only [List.cons.injEq, and_true] at hab
      omega
    · intro a ha b hb hab
      have h1 : a.length = 1 := by
        rcases List.mem_append.1 ha with h | h <;> obtain ⟨i, _, rfl⟩ := List.mem_map.1 h <;> rfl
      obtain ⟨i, _, rfl⟩ := List.mem_map.1 hb
      have := numName_length 99 (1 + i)
      rw [hab] at h1
      dsimp only at h1
      omega

/-- **C76 is false of the code**: with one parameter and five iterators, all names are identifiers and
different in C, but the parameter `M` and the fifth iterator `m` are the same in Fortran. -/
theorem C76_clash : (∀ s ∈ Names.allNames (defaultTable 1 5 0), isIdent s) ∧ (Names.allNames (defaultTable 1 5 0)).Nodup ∧
    ¬ ((Names.allNames (defaultTable 1 5 0)).map foldS).Nodup ∧
    ∃ s ∈ (defaultTable 1 5 0).parameters, ∃ s' ∈ (defaultTable 1 5 0).iterators, s ≠ s' ∧ foldS s = foldS s' := by
  refine ⟨(C32_identifiers_iff 1 5 0).2 (by omega), (C32_distinct_iff 1 5 0).2 (by omega), ?_, ?_⟩
  · rw [C76_distinct_iff 1 5 0 (by omega) (by omega)]
    omega
  · exact ⟨[77], by decide, [109], by decide, by decide, by decide⟩

/-- The positive part: with at most four iterators. -/
theorem C76_fortran_names_partial (nbPar nbIter nbScat : Nat) (hp : nbPar ≤ 14) (hi : nbIter ≤ 4) :
    ((Names.allNames (defaultTable nbPar nbIter nbScat)).map foldS).Nodup :=
  (C76_distinct_iff nbPar nbIter nbScat hp (by omega)).2 (Or.inr hi)

/-- Parameters M, N, iterators i to l, scattering dimensions c1, c2. -/
example : ((Names.allNames (defaultTable 2 4 2)).map foldS) =
    [[109], [110], [105], [106], [107], [108], [99, 49], [99, 50]] := by decide

end Verif.Props.FNames
