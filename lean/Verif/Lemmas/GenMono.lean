import Verif.Lemmas.GenMain

/-! # The generation with a failing combination refines the generation -/

namespace Verif.Gen

open Verif.Loop

variable {D S C : Type} {o : DomOps D S C}

/-- A partial result that agrees with another one where it is defined. -/
def Le {α : Type} (a b : Option α) : Prop := ∀ r, a = some r → b = some r

theorem Le.refl {α : Type} (a : Option α) : Le a a := fun _ h => h

theorem flatMapM_le {α β : Type} {f g : α → Option (List β)} (hfg : ∀ a, Le (f a) (g a)) :
    ∀ l : List α, Le (flatMapM f l) (flatMapM g l)
  | [], _, h => h
  | a :: l, r, h => by
    rw [flatMapM] at h ⊢
    cases hf : f a with
    | none => simp [hf] at h
    | some b =>
      rw [hf] at h
      rw [hfg a b hf]
      cases hl : flatMapM f l with
      | none => simp [hl] at h
      | some t =>
        rw [hl] at h
        rw [flatMapM_le hfg l t hl]
        exact h

theorem recurseInner_le {g g' : List (Loop D S) → Option (List (Loop D S))}
    (hg : ∀ l, Le (g l) (g' l)) (L s n : Nat) : ∀ (k : Nat) (l : List (Loop D S)),
    Le (recurseInner o g L s n k l) (recurseInner o g' L s n k l)
  | _, [], _, h => by rw [recurseInner] at h ⊢; exact h
  | 0, _ :: _, _, h => by rw [recurseInner] at h; exact absurd h (by simp)
  | k + 1, l :: ls, r, h => by
    rw [recurseInner] at h ⊢
    split
    · rename_i hm
      rw [if_pos hm] at h
      cases hf : g (spanMore o L s n (l :: ls)).1 with
      | none => simp [hf] at h
      | some b =>
        rw [hf] at h
        rw [hg _ b hf]
        cases hl : recurseInner o g L s n k (spanMore o L s n (l :: ls)).2 with
        | none => simp [hl] at h
        | some t =>
          rw [hl] at h
          rw [recurseInner_le hg L s n k _ t hl]
          exact h
    · rename_i hm
      rw [if_neg hm] at h
      cases hl : recurseInner o g L s n k ls with
      | none => simp [hl] at h
      | some t =>
        rw [hl] at h
        rw [recurseInner_le hg L s n k _ t hl]
        exact h

theorem recurseBelow_le {c : Ctx} {g g' : List (Loop D S) → D → Nat → Nat → Option (List (Loop D S))}
    (hg : ∀ l d L s, Le (g l d L s) (g' l d L s)) (L s : Nat) (l : Loop D S) :
    Le (recurseBelow o c g L s l) (recurseBelow o c g' L s l) := by
  intro r h
  unfold recurseBelow at h ⊢
  dsimp only at h ⊢
  generalize (if 0 < L ∧ c.opt.otl = true then loopOtl o L l else l) = m at h ⊢
  split at h
  · exact absurd h (by simp)
  · rename_i t hl
    rw [recurseInner_le (fun ls => hg ls _ (L + 1) s) _ _ _ _ _ t hl]
    exact h

theorem recurse_le {c : Ctx} {g g' : List (Loop D S) → D → Nat → Nat → Option (List (Loop D S))}
    (hg : ∀ l d L s, Le (g l d L s) (g' l d L s)) (k : Bool) (L s : Nat) (ls : List (Loop D S)) :
    Le (recurse o c g k L s ls) (recurse o c g' k L s ls) := by
  have h1 : ∀ l, Le (loopRecurseConst o c g L s l) (loopRecurseConst o c g' L s l) := by
    intro l r h
    unfold loopRecurseConst at h ⊢
    rw [Option.map_eq_some_iff] at h
    obtain ⟨a, ha, rfl⟩ := h
    rw [recurseBelow_le hg L s l a ha]
    rfl
  unfold recurse
  refine flatMapM_le (fun l r h => ?_) ls
  unfold loopRecurse at h ⊢
  cases hp : recursePrepare o c k L s l with
  | none => simp [hp] at h
  | some q =>
    rw [hp] at h
    cases q with
    | inl m => exact h1 m r h
    | inr ms => exact flatMapM_le h1 ms r h

theorem generateGeneral_le {c : Ctx} {fuel : Nat}
    {g g' : List (Loop D S) → D → Nat → Nat → Option (List (Loop D S))}
    (hg : ∀ l d L s, Le (g l d L s) (g' l d L s)) (L s : Nat) (ls : List (Loop D S)) :
    Le (generateGeneral o fuel c g L s ls) (generateGeneral o fuel c g' L s ls) := by
  intro r h
  unfold generateGeneral at h ⊢
  dsimp only at h ⊢
  cases h3 : step3 o fuel c L s (levels c.opt ls).1 ls with
  | none => simp [h3] at h
  | some q =>
    obtain ⟨r3, sep, k⟩ := q
    rw [h3] at h
    dsimp only at h ⊢
    cases h3b : step3b o c L s sep r3 with
    | none => simp [h3b] at h
    | some r3b =>
      rw [h3b] at h
      dsimp only at h ⊢
      cases h4 : step4 o fuel c g L s (levels c.opt ls).2 k r3b with
      | none => simp [h4] at h
      | some r4 =>
        rw [h4] at h
        have h4' : step4 o fuel c g' L s (levels c.opt ls).2 k r3b = some r4 := by
          unfold step4 at h4 ⊢
          split
          · rename_i hc
            rw [if_pos hc] at h4
            exact recurse_le hg k L s r3b r4 h4
          · rename_i hc
            rw [if_neg hc] at h4
            exact h4
        rw [h4']
        exact h

theorem generateComponentsC_le {c : Ctx} {fuel : Nat}
    {comb comb' : List (Loop D S) → Option (List (Loop D S))} (hcomb : ∀ l, Le (comb l) (comb' l))
    {g g' : List (Loop D S) → D → Nat → Nat → Option (List (Loop D S))}
    (hg : ∀ l d L s, Le (g l d L s) (g' l d L s)) (L s : Nat) (ls : List (Loop D S)) :
    Le (generateComponentsC o comb fuel c g L s ls) (generateComponentsC o comb' fuel c g' L s ls) := by
  intro r h
  unfold generateComponentsC at h ⊢
  split
  · rename_i hc
    rw [if_pos hc] at h
    exact generateGeneral_le hg L s ls r h
  · rename_i hc
    rw [if_neg hc] at h
    cases h1 : componentsOf (fun a b => innerFollows o a b L s c.scaldims) ls with
    | none => simp [h1] at h
    | some cs =>
      rw [h1] at h
      dsimp only at h ⊢
      cases h2 : flatMapM (generateGeneral o fuel c g L s) cs with
      | none => simp [h2] at h
      | some q =>
        rw [h2] at h
        rw [flatMapM_le (generateGeneral_le hg L s) cs q h2]
        exact hcomb q r h

theorem scalarLoop_le {c : Ctx} {g g' : List (Loop D S) → Option (List (Loop D S))}
    (hg : ∀ l, Le (g l) (g' l)) (L s t : Nat) : ∀ (n : Nat) (l : List (Loop D S)),
    Le (scalarLoop o c g L s t n l) (scalarLoop o c g' L s t n l)
  | _, [], _, h => by rw [scalarLoop] at h ⊢; exact h
  | 0, _ :: _, _, h => by rw [scalarLoop] at h; exact absurd h (by simp)
  | n + 1, l :: ls, r, h => by
    rw [scalarLoop] at h ⊢
    split
    · rename_i hm
      rw [if_pos hm] at h
      cases hf : g (l :: (scalarGroup o c L s t l ls).1) with
      | none => simp [hf] at h
      | some b =>
        rw [hf] at h
        rw [hg _ b hf]
        cases hl : scalarLoop o c g L s t n (scalarGroup o c L s t l ls).2 with
        | none => simp [hl] at h
        | some q =>
          rw [hl] at h
          rw [scalarLoop_le hg L s t n _ q hl]
          exact h
    · rename_i hm
      rw [if_neg hm] at h
      cases hl : scalarLoop o c g L s t n (scalarGroup o c L s t l ls).2 with
      | none => simp [hl] at h
      | some q =>
        rw [hl] at h
        rw [scalarLoop_le hg L s t n _ q hl]
        exact h

theorem generateScalar_le {c : Ctx} {g g' : List (Loop D S) → Nat → Option (List (Loop D S))}
    (hg : ∀ l s, Le (g l s) (g' l s)) (L s : Nat) (ls : List (Loop D S)) :
    Le (generateScalar o c g L s ls) (generateScalar o c g' L s ls) := by
  intro r h
  unfold generateScalar at h ⊢
  dsimp only at h ⊢
  split at h
  · exact absurd h (by simp)
  · exact scalarLoop_le (fun l => hg l _) _ _ _ _ _ r h

theorem generateRestrictedC_le {c : Ctx} {comb comb' : List (Loop D S) → Option (List (Loop D S))}
    (hcomb : ∀ l, Le (comb l) (comb' l)) : ∀ (fuel : Nat) (b : Bool) (ls : List (Loop D S)) (d : D)
    (L s : Nat), Le (generateRestrictedC o comb c fuel b ls d L s)
      (generateRestrictedC o comb' c fuel b ls d L s)
  | 0, _, _, _, _, _, _, h => by rw [generateRestrictedC] at h; exact absurd h (by simp)
  | fuel + 1, b, ls, d, L, s, r, h => by
    rw [generateRestrictedC] at h ⊢
    split
    · rename_i hc
      rw [if_pos hc] at h
      exact h
    · rename_i hc
      rw [if_neg hc] at h
      split
      · rename_i hk
        rw [if_pos hk] at h
        exact generateScalar_le
          (fun l s' => generateRestrictedC_le hcomb fuel false l d L s') L s ls r h
      · rename_i hk
        rw [if_neg hk] at h
        exact generateComponentsC_le hcomb
          (fun l d' L' s' => generateRestrictedC_le hcomb fuel true l d' L' s') L s _ r h

theorem generateC_le {c : Ctx} {comb comb' : List (Loop D S) → Option (List (Loop D S))}
    (hcomb : ∀ l, Le (comb l) (comb' l)) (fuel : Nat) (ls : List (Loop D S)) (d : D) (L s : Nat) :
    Le (generateC o comb c fuel ls d L s) (generateC o comb' c fuel ls d L s) := by
  intro r h
  unfold generateC at h ⊢
  split
  · rename_i hc
    rw [if_pos hc] at h
    exact h
  · rename_i hc
    rw [if_neg hc] at h
    exact generateRestrictedC_le hcomb fuel true _ d L s r h

end Verif.Gen
