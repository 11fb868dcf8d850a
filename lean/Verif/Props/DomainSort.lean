import Verif.Model.DomainSort
import Mathlib.Data.List.Nodup
import Mathlib.Data.List.Range
import Mathlib.Data.Finset.Card
import Mathlib.Data.Finset.Range
import Mathlib.Data.Finset.Max
import Mathlib.Order.WellFounded
import Mathlib.Data.Fintype.Card
import Mathlib.Tactic.Linarith

/-!
# C19: sorting the domains of a level

Specification: the result is a permutation of `1..n`, and whenever the comparison says that a domain
comes after another one, it does in the result.
-/

namespace Verif.Props.DomainSort

open Verif.DomainSort

/-! ## Building the matrix -/

/-- `R a b`: domain `a` has to come after domain `b`. The comparison is consistent with `R`. -/
structure Consistent (cmp : Nat → Nat → Int) (R : Nat → Nat → Prop) : Prop where
  irrefl : ∀ a, ¬ R a a
  trans : ∀ a b c, R a b → R b c → R a c
  pos : ∀ i j, j < i → 0 < cmp i j → R i j
  neg : ∀ i j, j < i → cmp i j < 0 → R j i

theorem pairStep_sound {cmp : Nat → Nat → Int} {R : Nat → Nat → Prop} (h : Consistent cmp R)
    {i j : Nat} (hij : j < i) {f : Mat} (hf : ∀ a b, f a b = true → R a b) :
    ∀ a b, pairStep cmp i j f a b = true → R a b := by
  intro a b hab
  unfold pairStep at hab
  split at hab
  · exact hf a b hab
  · split at hab
    · exact hf a b hab
    · split at hab
      · rename_i hp
        dsimp only at hab
        split at hab
        · subst_vars
          simp only [Bool.or_eq_true, beq_iff_eq, Bool.and_eq_true] at hab
          rcases hab with (rfl | h') | ⟨_, h'⟩
          · exact h.pos _ _ hij hp
          · exact hf _ _ h'
          · exact h.trans _ _ _ (h.pos _ _ hij hp) (hf _ _ h')
        · exact hf a b hab
      · rename_i h0 hp
        have hn : cmp i j < 0 := by omega
        dsimp only at hab
        split at hab
        · subst_vars
          simp only [Bool.or_eq_true, beq_iff_eq, Bool.and_eq_true] at hab
          rcases hab with (rfl | h') | ⟨_, h'⟩
          · exact h.neg _ _ hij hn
          · exact hf _ _ h'
          · exact h.trans _ _ _ (hf _ _ h') (h.neg _ _ hij hn)
        · exact hf a b hab

theorem pairStep_mono (cmp : Nat → Nat → Int) (i j : Nat) (f : Mat) (a b : Nat)
    (h : f a b = true) : pairStep cmp i j f a b = true := by
  unfold pairStep
  split
  · exact h
  · split
    · exact h
    · split <;> dsimp only <;> split <;> simp_all

theorem pairStep_hit (cmp : Nat → Nat → Int) (i j : Nat) (f : Mat) (h : cmp i j ≠ 0) :
    pairStep cmp i j f i j = true ∨ pairStep cmp i j f j i = true := by
  unfold pairStep
  split
  · rename_i h'; simpa using h'
  · split <;> simp

theorem rowLoop_mono (cmp : Nat → Nat → Int) (i : Nat) : ∀ (m : Nat) (f : Mat) (a b : Nat),
    f a b = true → rowLoop cmp i m f a b = true
  | 0, _, _, _, h => h
  | m + 1, f, a, b, h => pairStep_mono _ _ _ _ _ _ (rowLoop_mono cmp i m f a b h)

theorem rowLoop_sound {cmp : Nat → Nat → Int} {R : Nat → Nat → Prop} (h : Consistent cmp R) (i : Nat) :
    ∀ (m : Nat), m ≤ i → ∀ f : Mat, (∀ a b, f a b = true → R a b) →
      ∀ a b, rowLoop cmp i m f a b = true → R a b
  | 0, _, _, hf => hf
  | m + 1, hm, f, hf => pairStep_sound h (by omega) (rowLoop_sound h i m (by omega) f hf)

theorem rowLoop_hit (cmp : Nat → Nat → Int) (i : Nat) : ∀ (m : Nat) (f : Mat) (j : Nat), j < m →
    cmp i j ≠ 0 → rowLoop cmp i m f i j = true ∨ rowLoop cmp i m f j i = true
  | 0, _, j, h, _ => by omega
  | m + 1, f, j, hj, hc => by
    by_cases h : j = m
    · subst h; exact pairStep_hit _ _ _ _ hc
    · rcases rowLoop_hit cmp i m f j (by omega) hc with h' | h'
      · exact Or.inl (pairStep_mono _ _ _ _ _ _ h')
      · exact Or.inr (pairStep_mono _ _ _ _ _ _ h')

theorem build_sound {cmp : Nat → Nat → Int} {R : Nat → Nat → Prop} (h : Consistent cmp R) :
    ∀ n a b, build cmp n a b = true → R a b
  | 0, _, _, h' => by simp [build] at h'
  | n + 1, a, b, h' => rowLoop_sound h n n (Nat.le_refl _) _ (build_sound h n) a b h'

theorem build_hit (cmp : Nat → Nat → Int) : ∀ n i j, j < i → i < n → cmp i j ≠ 0 →
    build cmp n i j = true ∨ build cmp n j i = true
  | 0, _, _, _, h, _ => by omega
  | n + 1, i, j, hj, hi, hc => by
    by_cases h : i = n
    · subst h; exact rowLoop_hit cmp i i _ j hj hc
    · rcases build_hit cmp n i j hj (by omega) hc with h' | h'
      · exact Or.inl (rowLoop_mono _ _ _ _ _ _ h')
      · exact Or.inr (rowLoop_mono _ _ _ _ _ _ h')

/-- Under a consistent comparison, the matrix records every verdict. -/
theorem build_complete {cmp : Nat → Nat → Int} {R : Nat → Nat → Prop} (h : Consistent cmp R)
    (n i j : Nat) (hj : j < i) (hi : i < n) :
    (0 < cmp i j → build cmp n i j = true) ∧ (cmp i j < 0 → build cmp n j i = true) := by
  constructor <;> intro hc
  · rcases build_hit cmp n i j hj hi (by omega) with h' | h'
    · exact h'
    · exact absurd (h.trans _ _ _ (h.pos _ _ hj hc) (build_sound h n _ _ h')) (h.irrefl _)
  · rcases build_hit cmp n i j hj hi (by omega) with h' | h'
    · exact absurd (h.trans _ _ _ (h.neg _ _ hj hc) (build_sound h n _ _ h')) (h.irrefl _)
    · exact h'

/-! ## Selection -/

/-- Invariant of the selection loop, where `f0` is the matrix it starts from. -/
structure Inv (n : Nat) (f0 f : Mat) (out : List Nat) : Prop where
  nodup : out.Nodup
  lt : ∀ a ∈ out, a < n
  rest : ∀ a b, a ∉ out → f a b = (f0 a b && decide (b ∉ out))
  done : ∀ a ∈ out, f a a = true
  order : ∀ pre a post, out = pre ++ a :: post → ∀ b, b < n → f0 a b = true → b ∈ pre

theorem inv_start (n : Nat) (f0 : Mat) : Inv n f0 f0 [] where
  nodup := List.nodup_nil
  lt := by simp
  rest := by simp
  done := by simp
  order := by simp

theorem rowSet_false {n : Nat} {f : Mat} {j : Nat} : rowSet n f j = false ↔ ∀ k, k < n → f j k = false := by
  simp [rowSet]

theorem inv_step {n : Nat} {f0 f : Mat} {out : List Nat} {j : Nat} (h : Inv n f0 f out) (hj : j < n)
    (hr : rowSet n f j = false) : Inv n f0 (retire f j) (out ++ [j]) := by
  rw [rowSet_false] at hr
  have hjo : j ∉ out := fun hm => by have := h.done j hm; rw [hr j hj] at this; cases this
  constructor
  · rw [List.nodup_append]
    refine ⟨h.nodup, by simp, ?_⟩
    intro a ha b hb hab
    simp at hb; subst hb; subst hab; exact hjo ha
  · intro a ha
    rcases List.mem_append.mp ha with h' | h'
    · exact h.lt a h'
    · simp at h'; omega
  · intro a b ha
    simp only [List.mem_append, List.mem_singleton, not_or] at ha
    unfold retire
    by_cases hb : b = j
    · subst hb; simp [ha.2]
    · rw [if_neg hb, h.rest a b ha.1]; simp [hb]
  · intro a ha
    unfold retire
    rcases List.mem_append.mp ha with h' | h'
    · rw [if_neg (fun hh : a = j => hjo (hh ▸ h'))]; exact h.done a h'
    · simp at h'; simp [h']
  · intro pre a post heq b hb hf
    rcases List.eq_nil_or_concat post with rfl | ⟨post', z, rfl⟩
    · have := List.append_inj' heq rfl
      obtain ⟨h1, h2⟩ := this
      simp at h2; subst h2; subst h1
      by_contra hbo
      have h3 := h.rest j b hjo
      rw [hf, hr b hb] at h3
      simp [hbo] at h3
    · rw [List.concat_eq_append, show pre ++ a :: (post' ++ [z]) = (pre ++ a :: post') ++ [z] by simp] at heq
      have := List.append_inj' heq rfl
      exact h.order pre a post' this.1 b hb hf

theorem inv_length {n : Nat} {f0 f : Mat} {out : List Nat} (h : Inv n f0 f out) : out.length ≤ n := by
  have : out ⊆ List.range n := fun a ha => List.mem_range.mpr (h.lt a ha)
  have := (List.subperm_of_subset h.nodup this).length_le
  simpa using this

/-- Whenever the loop ends, the invariant holds for the result. -/
theorem select_inv (n : Nat) (hn : 0 < n) (f0 : Mat) : ∀ (fuel : Nat) (f : Mat) (j : Nat)
    (out : List Nat), j < n → Inv n f0 f out → ∀ res, select n fuel f j out = some res →
    ∃ f', Inv n f0 f' res ∧ res.length = n
  | 0, f, j, out, _, h, res, hs => by
    unfold select at hs
    split at hs
    · injection hs with hs; subst hs; exact ⟨f, h, by have := inv_length h; omega⟩
    · cases hs
  | fuel + 1, f, j, out, hj, h, res, hs => by
    unfold select at hs
    split at hs
    · injection hs with hs; subst hs; exact ⟨f, h, by have := inv_length h; omega⟩
    · split at hs
      · exact select_inv n hn f0 fuel f _ out (Nat.mod_lt _ hn) h res hs
      · rename_i hr
        exact select_inv n hn f0 fuel _ _ _ (Nat.mod_lt _ hn) (inv_step h hj (by simpa using hr)) res hs

/-- More fuel does not change the result. -/
theorem select_mono (n : Nat) : ∀ (fuel fuel' : Nat) (f : Mat) (j : Nat) (out res : List Nat),
    fuel ≤ fuel' → select n fuel f j out = some res → select n fuel' f j out = some res
  | 0, fuel', f, j, out, res, _, h => by
    unfold select at h
    split at h
    · cases fuel' <;> unfold select <;> simp_all
    · cases h
  | fuel + 1, 0, _, _, _, _, hle, _ => by omega
  | fuel + 1, fuel' + 1, f, j, out, res, hle, h => by
    unfold select at h ⊢
    split at h
    · simp_all
    · rename_i hlt
      rw [if_neg hlt]
      split at h
      · rename_i hr
        rw [if_pos hr]; exact select_mono n fuel fuel' _ _ _ _ (by omega) h
      · rename_i hr
        rw [if_neg hr]; exact select_mono n fuel fuel' _ _ _ _ (by omega) h

/-- From `j`, the ready index `(j + d) % n` is reached in at most `d` steps, unless another one is
output before. -/
theorem select_progress (n : Nat) (hn : 0 < n) (f : Mat) (out : List Nat) (hlt : out.length < n)
    (fuel : Nat) : ∀ (d j : Nat), j < n → rowSet n f ((j + d) % n) = false →
    ∃ d' j', d' ≤ d ∧ j' < n ∧ rowSet n f j' = false ∧
      select n (fuel + 1 + d') f j out = select n fuel (retire f j') ((j' + 1) % n) (out ++ [j'])
  | 0, j, hj, hr => by
    have hjm : (j + 0) % n = j := by simp [Nat.mod_eq_of_lt hj]
    rw [hjm] at hr
    refine ⟨0, j, Nat.le_refl _, hj, hr, ?_⟩
    show select n (fuel + 1) f j out = _
    rw [select, if_neg (by omega), if_neg (by simp [hr])]
  | d + 1, j, hj, hr => by
    by_cases h0 : rowSet n f j = false
    · refine ⟨0, j, by omega, hj, h0, ?_⟩
      show select n (fuel + 1) f j out = _
      rw [select, if_neg (by omega), if_neg (by simp [h0])]
    · have hr' : rowSet n f (((j + 1) % n + d) % n) = false := by
        rw [Nat.mod_add_mod, show j + 1 + d = j + (d + 1) by omega]; exact hr
      obtain ⟨d', j', h1, h2, h3, h4⟩ := select_progress n hn f out hlt fuel d ((j + 1) % n)
        (Nat.mod_lt _ hn) hr'
      refine ⟨d' + 1, j', by omega, h2, h3, ?_⟩
      rw [← h4, show fuel + 1 + (d' + 1) = (fuel + 1 + d') + 1 by omega]
      conv_lhs => rw [select]
      rw [if_neg (by omega), if_pos (by simpa using h0)]

/-- A non-empty list has an element that has to come after no other one. -/
theorem exists_min {R : Nat → Nat → Prop} (hi : ∀ a, ¬ R a a) (ht : ∀ a b c, R a b → R b c → R a c) :
    ∀ l : List Nat, l ≠ [] → ∃ a ∈ l, ∀ b ∈ l, ¬ R a b
  | [], h => absurd rfl h
  | [x], _ => ⟨x, by simp, by simp [hi]⟩
  | x :: y :: ys, _ => by
    obtain ⟨m, hm, hmin⟩ := exists_min hi ht (y :: ys) (by simp)
    by_cases hx : R m x
    · refine ⟨x, by simp, ?_⟩
      intro b hb
      rcases List.mem_cons.mp hb with rfl | hb
      · exact hi _
      · exact fun h => hmin b hb (ht _ _ _ hx h)
    · refine ⟨m, List.mem_cons_of_mem _ hm, ?_⟩
      intro b hb
      rcases List.mem_cons.mp hb with rfl | hb
      · exact hx
      · exact hmin b hb

theorem exists_left (n : Nat) (out : List Nat) (h : out.length < n) : ∃ a, a < n ∧ a ∉ out := by
  by_contra hcon
  push Not at hcon
  have : List.range n ⊆ out := fun a ha => hcon a (List.mem_range.mp ha)
  have := (List.subperm_of_subset List.nodup_range this).length_le
  simp at this; omega

/-- The selection loop ends if the matrix is contained in a strict order. -/
theorem select_terminates {R : Nat → Nat → Prop} (hi : ∀ a, ¬ R a a)
    (ht : ∀ a b c, R a b → R b c → R a c) (n : Nat) (hn : 0 < n) (f0 : Mat)
    (hR : ∀ a b, f0 a b = true → R a b) : ∀ (k : Nat) (f : Mat) (j : Nat) (out : List Nat), j < n →
    Inv n f0 f out → out.length + k = n → ∃ res, select n (k * n) f j out = some res
  | 0, f, j, out, hj, h, hk => by
    refine ⟨out, ?_⟩
    simp only [Nat.zero_mul, select]
    rw [if_pos (by omega)]
  | k + 1, f, j, out, hj, h, hk => by
    obtain ⟨a0, ha0, ha0'⟩ := exists_left n out (by omega)
    obtain ⟨a, ha, hmin⟩ := exists_min hi ht ((List.range n).filter (fun a => decide (a ∉ out)))
      (fun hnil => by
        have : a0 ∈ (List.range n).filter (fun a => decide (a ∉ out)) := by simp [ha0, ha0']
        rw [hnil] at this; cases this)
    simp only [List.mem_filter, List.mem_range, decide_eq_true_eq] at ha hmin
    have hready : rowSet n f a = false := by
      rw [rowSet_false]
      intro b hb
      rw [h.rest a b ha.2]
      by_cases hbo : b ∈ out
      · simp [hbo]
      · have : ¬ f0 a b = true := fun hf => hmin b ⟨hb, hbo⟩ (hR a b hf)
        simp only [Bool.not_eq_true] at this
        simp [this]
    -- distance from j to a
    obtain ⟨d, hd, hda⟩ : ∃ d, d < n ∧ (j + d) % n = a := by
      by_cases hja : j ≤ a
      · exact ⟨a - j, by omega, by rw [show j + (a - j) = a by omega, Nat.mod_eq_of_lt ha.1]⟩
      · refine ⟨n - j + a, by omega, ?_⟩
        rw [show j + (n - j + a) = a + n by omega, Nat.add_mod_right, Nat.mod_eq_of_lt ha.1]
    obtain ⟨d', j', h1, h2, h3, h4⟩ := select_progress n hn f out (by omega) (k * n) d j hj
      (by rw [hda]; exact hready)
    obtain ⟨res, hres⟩ := select_terminates hi ht n hn f0 hR k _ ((j' + 1) % n) (out ++ [j'])
      (Nat.mod_lt _ hn) (inv_step h h2 h3) (by simp; omega)
    rw [← h4] at hres
    refine ⟨res, select_mono n _ _ _ _ _ _ ?_ hres⟩
    rw [Nat.add_mul]; omega

/-- The selection loop does not end if some set of indices is such that each of them has to come
after another one of them. -/
theorem select_diverges (n : Nat) (C : Nat → Prop) (c0 : Nat) (hc0 : C c0)
    (hC : ∀ a, C a → a < n) : ∀ (fuel : Nat) (f0 f : Mat) (j : Nat) (out : List Nat),
    0 < n → j < n → Inv n f0 f out → (∀ a ∈ out, ¬ C a) →
    (∀ a, C a → ∃ b, C b ∧ f0 a b = true) → select n fuel f j out = none := by
  intro fuel
  have hlen : ∀ (f0 f : Mat) (out : List Nat), Inv n f0 f out → (∀ a ∈ out, ¬ C a) →
      ¬ n ≤ out.length := by
    intro f0 f out h ho hle
    have hsub : out ⊆ (List.range n).erase c0 := by
      intro a ha
      rw [List.Nodup.mem_erase_iff List.nodup_range]
      exact ⟨fun he => ho a ha (he ▸ hc0), List.mem_range.mpr (h.lt a ha)⟩
    have h1 := (List.subperm_of_subset h.nodup hsub).length_le
    rw [List.length_erase_of_mem (List.mem_range.mpr (hC c0 hc0))] at h1
    simp at h1
    have := hC c0 hc0
    omega
  induction fuel with
  | zero =>
    intro f0 f j out _ _ h ho _
    simp only [select]
    rw [if_neg (hlen f0 f out h ho)]
  | succ fuel ih =>
    intro f0 f j out hn hj h ho hcyc
    unfold select
    rw [if_neg (hlen f0 f out h ho)]
    split
    · exact ih f0 f _ out hn (Nat.mod_lt _ hn) h ho hcyc
    · rename_i hr
      refine ih f0 _ _ _ hn (Nat.mod_lt _ hn) (inv_step h hj (by simpa using hr)) ?_ hcyc
      intro a ha hCa
      rcases List.mem_append.mp ha with h' | h'
      · exact ho a h' hCa
      · simp at h'
        subst h'
        obtain ⟨b, hb, hf⟩ := hcyc a hCa
        have hao : a ∉ out := fun hm => ho a hm hCa
        have := (rowSet_false.mp (by simpa using hr)) b (hC b hb)
        rw [h.rest a b hao, hf] at this
        simp at this
        exact ho b this hb

/-! ## C19 -/

theorem range_succ (n : Nat) : (List.range n).map (· + 1) = List.range' 1 n := by
  rw [List.range'_eq_map_range]
  simp [Nat.add_comm]

/-- `b` stands somewhere before `a` in the list. -/
def Precedes (l : List Nat) (b a : Nat) : Prop := ∃ pre post, l = pre ++ a :: post ∧ b ∈ pre

/-- C19, partial: if the comparison of domains is consistent with some strict order, the sort ends, the
result is a permutation of `1..n`, and of two domains that compare different the greater one comes
later. Missing from C19: comparisons that are not consistent with an order, for which the sort may run
forever (`C19_diverges`) or contradict the comparison (`C19_cycle_order`). -/
theorem C19_sorts_partial (cmp : Nat → Nat → Int) (R : Nat → Nat → Prop) (h : Consistent cmp R)
    (n : Nat) (hn : 0 < n) :
    ∃ res, (∀ fuel, n * n ≤ fuel → domainSort cmp n fuel = some res) ∧
      res.Perm (List.range' 1 n) ∧
      (∀ i j, j < i → i < n → 0 < cmp i j → Precedes res (j + 1) (i + 1)) ∧
      (∀ i j, j < i → i < n → cmp i j < 0 → Precedes res (i + 1) (j + 1)) := by
  obtain ⟨out, hout⟩ := select_terminates h.irrefl h.trans n hn (build cmp n) (build_sound h n) n
    (build cmp n) 0 [] hn (inv_start n _) (by simp)
  obtain ⟨f', hinv, hlen⟩ := select_inv n hn _ _ _ _ _ hn (inv_start n _) out hout
  have hmem : ∀ a, a < n → a ∈ out := by
    intro a ha
    have hs : out ⊆ List.range n := fun a ha => List.mem_range.mpr (hinv.lt a ha)
    have hp := (List.subperm_of_subset hinv.nodup hs).perm_of_length_le (by simp [hlen])
    exact hp.mem_iff.mpr (List.mem_range.mpr ha)
  have hprec : ∀ a b, a < n → b < n → build cmp n a b = true →
      Precedes (out.map (· + 1)) (b + 1) (a + 1) := by
    intro a b ha hb hf
    obtain ⟨pre, post, heq⟩ := List.append_of_mem (hmem a ha)
    refine ⟨pre.map (· + 1), post.map (· + 1), by rw [heq]; simp, ?_⟩
    exact List.mem_map.mpr ⟨b, hinv.order pre a post heq b hb hf, rfl⟩
  refine ⟨out.map (· + 1), ?_, ?_, ?_, ?_⟩
  · intro fuel hf
    unfold domainSort
    rw [select_mono n _ fuel _ _ _ _ hf hout]; rfl
  · have hs : out ⊆ List.range n := fun a ha => List.mem_range.mpr (hinv.lt a ha)
    have hp := (List.subperm_of_subset hinv.nodup hs).perm_of_length_le (by simp [hlen])
    have := hp.map (· + 1)
    rwa [range_succ] at this
  · intro i j hj hi hc
    exact hprec i j hi (by omega) ((build_complete h n i j hj hi).1 hc)
  · intro i j hj hi hc
    exact hprec j i (by omega) hi ((build_complete h n i j hj hi).2 hc)

/-- C19: whatever the comparison says, if the sort ends then its result is a permutation. -/
theorem C19_permutation_partial (cmp : Nat → Nat → Int) (n : Nat) (hn : 0 < n) (fuel : Nat)
    (res : List Nat) (h : domainSort cmp n fuel = some res) : res.Perm (List.range' 1 n) := by
  unfold domainSort at h
  simp only [Option.map_eq_some_iff] at h
  obtain ⟨out, hout, rfl⟩ := h
  obtain ⟨f', hinv, hlen⟩ := select_inv n hn _ _ _ _ _ hn (inv_start n _) out hout
  have hs : out ⊆ List.range n := fun a ha => List.mem_range.mpr (hinv.lt a ha)
  have hp := (List.subperm_of_subset hinv.nodup hs).perm_of_length_le (by simp [hlen])
  have := hp.map (· + 1)
  rwa [range_succ] at this

-- four domains on a line, given in the order 3, 1, 2, 0
example : domainSort (fun i j => ([3, 1, 2, 0].getD i 0 : Int) - [3, 1, 2, 0].getD j 0) 4 16 =
    some [4, 2, 3, 1] := by decide
example : Consistent (fun i j => ([3, 1, 2, 0].getD i 0 : Int) - [3, 1, 2, 0].getD j 0)
    (fun i j => ([3, 1, 2, 0].getD j 0 : Int) < [3, 1, 2, 0].getD i 0) where
  irrefl a := lt_irrefl _
  trans _ _ _ h1 h2 := lt_trans h2 h1
  pos _ _ _ h := by omega
  neg _ _ _ h := by omega

/-- The comparison of `C19_diverges`: 2 after 0, 1 after 2, 0 after 3, 3 after 1. -/
def cyc4 (i j : Nat) : Int :=
  if i = 2 ∧ j = 0 then 1 else if i = 2 ∧ j = 1 then -1
  else if i = 3 ∧ j = 0 then -1 else if i = 3 ∧ j = 1 then 1 else 0

/-- C19 is false of the code: for these outcomes of the comparison the selection loop never ends. -/
theorem C19_diverges : ∀ fuel, domainSort cyc4 4 fuel = none := by
  intro fuel
  unfold domainSort
  rw [select_diverges 4 (fun a => a < 4) 0 (by omega) (fun a h => h) fuel (build cyc4 4) (build cyc4 4)
    0 [] (by omega) (by omega) (inv_start _ _) (by simp) ?_]
  · rfl
  · intro a ha
    have : ∀ a, a < 4 → ∃ b, b < 4 ∧ build cyc4 4 a b = true := by decide
    exact this a ha

/-- C19: for a cycle of three the sort ends, with an order that contradicts the comparison of 2 and 1. -/
theorem C19_cycle_order :
    ∃ cmp : Nat → Nat → Int, 0 < cmp 2 1 ∧ domainSort cmp 3 9 = some [3, 1, 2] ∧
      ¬ Precedes [3, 1, 2] 2 3 := by
  refine ⟨fun i j => if i = 2 ∧ j = 0 then -1 else 1, by decide, by decide, ?_⟩
  rintro ⟨pre, post, h, hm⟩
  match pre with
  | [] => cases hm
  | [a] => simp at h
  | [a, b] => simp at h
  | a :: b :: c :: pre => simp at h

end Verif.Props.DomainSort
