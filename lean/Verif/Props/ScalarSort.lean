import Verif.Model.ScalarSort
import Verif.Props.Expr
import Mathlib.Data.List.Count
import Mathlib.Tactic.Linarith

/-!
# C20: sorting by scalar dimensions

Specification: the lexicographic order on the current run of scalar dimensions, permutations, and
`List.filter` for stability.
-/

namespace Verif.Props.ScalarSort

open Verif.ScalarSort Verif.Clast Verif.IntOps Verif.Props.Expr

/-- Position `q` of the scalar vectors belongs to a scalar dimension directly after `level` when
reached from `scalar` without meeting a non-scalar one: the run of scalar dimensions at `scalar` has
length `k`. -/
def IsRun (level : Nat) (scaldims : List Bool) (scalar k : Nat) : Prop :=
  0 < level ∧ (∀ i, i < k → scaldims[level + scalar + i - 1]? = some true) ∧
    scaldims[level + scalar + k - 1]? ≠ some true

/-- Lexicographic order on `k` positions from `scalar` on. -/
def LexLt (scalar k : Nat) (a b : Nat → Int) : Prop :=
  ∃ i, i < k ∧ (∀ j, j < i → a (scalar + j) = b (scalar + j)) ∧ a (scalar + i) < b (scalar + i)

/-- Equality on those positions. -/
def LexEq (scalar k : Nat) (a b : Nat → Int) : Prop := ∀ j, j < k → a (scalar + j) = b (scalar + j)

theorem lexEq_succ (scalar k : Nat) (a b : Nat → Int) :
    LexEq scalar (k + 1) a b ↔ a scalar = b scalar ∧ LexEq (scalar + 1) k a b := by
  unfold LexEq
  constructor
  · intro h
    refine ⟨h 0 (by omega), fun j hj => ?_⟩
    have := h (j + 1) (by omega)
    rwa [show scalar + (j + 1) = scalar + 1 + j by omega] at this
  · rintro ⟨h0, h⟩ j hj
    match j with
    | 0 => exact h0
    | j + 1 =>
      have := h j (by omega)
      rwa [show scalar + 1 + j = scalar + (j + 1) by omega] at this

theorem lexLt_succ (scalar k : Nat) (a b : Nat → Int) :
    LexLt scalar (k + 1) a b ↔ a scalar < b scalar ∨ a scalar = b scalar ∧ LexLt (scalar + 1) k a b := by
  unfold LexLt
  constructor
  · rintro ⟨i, hi, hj, hlt⟩
    match i with
    | 0 => left; simpa using hlt
    | i + 1 =>
      right
      refine ⟨hj 0 (by omega), i, by omega, fun j hj' => ?_, ?_⟩
      · have := hj (j + 1) (by omega)
        rwa [show scalar + (j + 1) = scalar + 1 + j by omega] at this
      · rwa [show scalar + (i + 1) = scalar + 1 + i by omega] at hlt
  · rintro (h | ⟨h0, i, hi, hj, hlt⟩)
    · exact ⟨0, by omega, by intro j hj; omega, by simpa using h⟩
    · refine ⟨i + 1, by omega, fun j hj' => ?_, ?_⟩
      · match j with
        | 0 => exact h0
        | j + 1 =>
          have := hj j (by omega)
          rwa [show scalar + 1 + j = scalar + (j + 1) by omega] at this
      · rwa [show scalar + 1 + i = scalar + (i + 1) by omega] at hlt

theorem isConst_iff (level scalar : Nat) (scaldims : List Bool) :
    levelIsConstant level scalar scaldims = true ↔
      0 < level ∧ scaldims[level + scalar - 1]? = some true := by
  unfold levelIsConstant
  simp only [Bool.and_eq_true, decide_eq_true_eq, List.getD_eq_getElem?_getD]
  constructor
  · rintro ⟨⟨h1, h2⟩, h3⟩
    refine ⟨h1, ?_⟩
    cases h : scaldims[level + scalar - 1]? with
    | none => rw [h] at h3; cases h3
    | some b => rw [h] at h3; simpa using h3
  · rintro ⟨h1, h2⟩
    have := (List.getElem?_eq_some_iff.mp h2).1
    exact ⟨⟨h1, by omega⟩, by rw [h2]; rfl⟩

theorem constantCmpN_spec (icmp : Int → Int → Int) (hc : ICmpExact icmp) (level : Nat)
    (scaldims : List Bool) (a b : Nat → Int) : ∀ (k n scalar : Nat), k < n →
    IsRun level scaldims scalar k →
    (constantCmpN icmp level scaldims a b n scalar > 0 ↔ LexLt scalar k b a) ∧
    (constantCmpN icmp level scaldims a b n scalar = 0 ↔ LexEq scalar k a b)
  | _, 0, _, h, _ => by omega
  | 0, n + 1, scalar, _, hr => by
    have : ¬ levelIsConstant level scalar scaldims = true := by
      rw [isConst_iff]; rintro ⟨_, h⟩; exact hr.2.2 (by simpa using h)
    unfold constantCmpN
    rw [if_neg this]
    constructor
    · constructor
      · intro h; omega
      · rintro ⟨i, hi, _⟩; omega
    · exact ⟨fun _ j hj => by omega, fun _ => rfl⟩
  | k + 1, n + 1, scalar, hn, hr => by
    have h0 : levelIsConstant level scalar scaldims = true := by
      rw [isConst_iff]; exact ⟨hr.1, by simpa using hr.2.1 0 (by omega)⟩
    have hr' : IsRun level scaldims (scalar + 1) k := by
      refine ⟨hr.1, fun i hi => ?_, ?_⟩
      · have := hr.2.1 (i + 1) (by omega)
        rwa [show level + scalar + (i + 1) - 1 = level + (scalar + 1) + i - 1 by omega] at this
      · have := hr.2.2
        rwa [show level + scalar + (k + 1) - 1 = level + (scalar + 1) + k - 1 by omega] at this
    obtain ⟨ih1, ih2⟩ := constantCmpN_spec icmp hc level scaldims a b k n (scalar + 1) (by omega) hr'
    unfold constantCmpN
    rw [if_pos h0, lexLt_succ, lexEq_succ]
    obtain ⟨c1, c2, c3⟩ := hc (a scalar) (b scalar)
    by_cases hz : icmp (a scalar) (b scalar) = 0
    · rw [if_neg (by simpa using hz)]
      have : a scalar = b scalar := c2.mp hz
      constructor
      · rw [ih1]; constructor
        · intro h; exact Or.inr ⟨this.symm, h⟩
        · rintro (h | ⟨_, h⟩)
          · omega
          · exact h
      · rw [ih2]; simp [this]
    · rw [if_pos hz]
      have hne : a scalar ≠ b scalar := fun h => hz (c2.mpr h)
      constructor
      · rw [c3]
        constructor
        · intro h; left; omega
        · rintro (h | ⟨h, _⟩)
          · omega
          · exact absurd h.symm hne
      · constructor
        · intro h; exact absurd h hz
        · rintro ⟨h, _⟩; exact absurd h hne

/-- `cloog_loop_constant_cmp` compares lexicographically on the current run of scalar dimensions. -/
theorem constantCmp_spec (icmp : Int → Int → Int) (hc : ICmpExact icmp) (level : Nat)
    (scaldims : List Bool) (a b : Nat → Int) (k scalar : Nat) (hr : IsRun level scaldims scalar k) :
    (constantCmp icmp level scaldims a b scalar > 0 ↔ LexLt scalar k b a) ∧
    (constantCmp icmp level scaldims a b scalar = 0 ↔ LexEq scalar k a b) := by
  apply constantCmpN_spec icmp hc level scaldims a b k _ scalar _ hr
  match k with
  | 0 => omega
  | k + 1 =>
    have := (List.getElem?_eq_some_iff.mp (hr.2.1 k (by omega))).1
    have := hr.1
    omega

/-! ## The bubble sort -/

theorem passFrom_perm {α : Type} (gt : α → α → Bool) : ∀ (l : List α) (x : α),
    (passFrom gt x l).1.Perm (x :: l)
  | [], x => .refl _
  | y :: l, x => by
    unfold passFrom
    split
    · exact ((passFrom_perm gt l x).cons y).trans (.swap x y l)
    · exact (passFrom_perm gt l y).cons x

theorem pass_perm {α : Type} (gt : α → α → Bool) : ∀ l : List α, (pass gt l).1.Perm l
  | [] => .refl _
  | x :: l => passFrom_perm gt l x

theorem passFrom_filter {α : Type} (gt : α → α → Bool) (P : α → Bool)
    (h : ∀ x y, gt x y = true → ¬ (P x = true ∧ P y = true)) :
    ∀ (l : List α) (x : α), (passFrom gt x l).1.filter P = (x :: l).filter P
  | [], x => rfl
  | y :: l, x => by
    unfold passFrom
    split
    · rename_i hg
      have ih := passFrom_filter gt P h l x
      have := h x y hg
      by_cases hx : P x = true
      · have hy : P y = false := by simpa using fun hy => this ⟨hx, hy⟩
        simp only [List.filter_cons, hx, hy] at ih ⊢
        simpa using ih
      · simp only [List.filter_cons, hx] at ih ⊢
        simp only [Bool.false_eq_true, if_false] at ih ⊢
        rw [ih]
    · have ih := passFrom_filter gt P h l y
      rw [List.filter_cons, ih]
      conv_rhs => rw [List.filter_cons]

/-- Elements satisfying `P` are never exchanged with one another. -/
theorem pass_filter {α : Type} (gt : α → α → Bool) (P : α → Bool)
    (h : ∀ x y, gt x y = true → ¬ (P x = true ∧ P y = true)) :
    ∀ l : List α, (pass gt l).1.filter P = l.filter P
  | [] => rfl
  | x :: l => passFrom_filter gt P h l x

/-- Number of pairs in the wrong order. -/
def inversions {α : Type} (gt : α → α → Bool) : List α → Nat
  | [] => 0
  | x :: l => l.countP (gt x) + inversions gt l

theorem passFrom_inversions {α : Type} (gt : α → α → Bool)
    (hasym : ∀ x y, gt x y = true → gt y x = false) : ∀ (l : List α) (x : α),
    inversions gt (passFrom gt x l).1 + (if (passFrom gt x l).2 then 0 else 1) ≤ inversions gt (x :: l)
  | [], x => by simp [passFrom, inversions]
  | y :: l, x => by
    unfold passFrom
    split
    · rename_i hg
      have ih := passFrom_inversions gt hasym l x
      have hp := (passFrom_perm gt l x).countP_eq (gt y)
      have h0 := hasym x y hg
      simp only [inversions] at ih ⊢
      rw [hp]
      simp only [List.countP_cons, h0, hg, if_true, Bool.false_eq_true, if_false]
      split at ih <;> omega
    · rename_i hg
      have ih := passFrom_inversions gt hasym l y
      have hp := (passFrom_perm gt l y).countP_eq (gt x)
      simp only [inversions] at ih ⊢
      rw [hp]
      split at ih <;> simp_all <;> omega

theorem pass_inversions {α : Type} (gt : α → α → Bool)
    (hasym : ∀ x y, gt x y = true → gt y x = false) : ∀ l : List α,
    inversions gt (pass gt l).1 + (if (pass gt l).2 then 0 else 1) ≤ inversions gt l
  | [] => by simp [pass, inversions]
  | x :: l => passFrom_inversions gt hasym l x

theorem passFrom_ok {α : Type} (gt : α → α → Bool) : ∀ (l : List α) (x : α),
    (passFrom gt x l).2 = true →
    (passFrom gt x l).1 = x :: l ∧ (x :: l).IsChain (fun x y => gt x y = false)
  | [], x, _ => ⟨rfl, .singleton x⟩
  | y :: l, x, h => by
    unfold passFrom at h ⊢
    split at h
    · cases h
    · rename_i hg
      obtain ⟨h1, h2⟩ := passFrom_ok gt l y h
      rw [if_neg hg]
      exact ⟨by simp only [h1], .cons_cons (by simpa using hg) h2⟩

theorem pass_ok {α : Type} (gt : α → α → Bool) : ∀ l : List α, (pass gt l).2 = true →
    (pass gt l).1 = l ∧ l.IsChain (fun x y => gt x y = false)
  | [], _ => ⟨rfl, .nil⟩
  | x :: l, h => passFrom_ok gt l x h

theorem bubble_terminates {α : Type} (gt : α → α → Bool)
    (hasym : ∀ x y, gt x y = true → gt y x = false) : ∀ (fuel : Nat) (l : List α),
    inversions gt l < fuel → ∃ res, bubble gt fuel l = some res
  | 0, l, h => by omega
  | fuel + 1, l, h => by
    unfold bubble
    have hi := pass_inversions gt hasym l
    split
    · exact ⟨_, rfl⟩
    · rename_i hok
      rw [if_neg hok] at hi
      exact bubble_terminates gt hasym fuel _ (by omega)

theorem bubble_spec {α : Type} (gt : α → α → Bool) : ∀ (fuel : Nat) (l res : List α),
    bubble gt fuel l = some res →
    res.Perm l ∧ res.IsChain (fun x y => gt x y = false) ∧
    (∀ P : α → Bool, (∀ x y, gt x y = true → ¬ (P x = true ∧ P y = true)) →
      res.filter P = l.filter P)
  | 0, _, _, h => by cases h
  | fuel + 1, l, res, h => by
    unfold bubble at h
    split at h
    · rename_i hok
      injection h with h; subst h
      obtain ⟨h1, h2⟩ := pass_ok gt l hok
      rw [h1]; exact ⟨.refl _, h2, fun _ _ => rfl⟩
    · obtain ⟨h1, h2, h3⟩ := bubble_spec gt fuel _ res h
      exact ⟨h1.trans (pass_perm gt l), h2, fun P hP => (h3 P hP).trans (pass_filter gt P hP l)⟩

theorem inversions_le {α : Type} (gt : α → α → Bool) : ∀ l : List α,
    inversions gt l ≤ l.length * l.length
  | [] => by simp [inversions]
  | x :: l => by
    have h1 := inversions_le gt l
    have h2 := l.countP_le_length (p := gt x)
    simp only [inversions, List.length_cons]
    nlinarith

theorem lexLt_trichotomy (scalar : Nat) : ∀ (k : Nat) (a b : Nat → Int) (s : Nat),
    LexLt s k a b ∨ LexEq s k a b ∨ LexLt s k b a
  | 0, a, b, s => Or.inr (Or.inl fun j hj => by omega)
  | k + 1, a, b, s => by
    rw [lexLt_succ, lexEq_succ, lexLt_succ]
    have ih := lexLt_trichotomy scalar k a b (s + 1)
    rcases lt_trichotomy (a s) (b s) with h | h | h
    · exact Or.inl (Or.inl h)
    · rcases ih with ih | ih | ih
      · exact Or.inl (Or.inr ⟨h, ih⟩)
      · exact Or.inr (Or.inl ⟨h, ih⟩)
      · exact Or.inr (Or.inr (Or.inr ⟨h.symm, ih⟩))
    · exact Or.inr (Or.inr (Or.inl h))

theorem lexLt_trans : ∀ (k s : Nat) (a b c : Nat → Int), ¬ LexLt s k b a → ¬ LexLt s k c b →
    ¬ LexLt s k c a
  | 0, s, a, b, c, _, _ => by rintro ⟨i, hi, _⟩; omega
  | k + 1, s, a, b, c, h1, h2 => by
    rw [lexLt_succ] at h1 h2 ⊢
    rintro (h | ⟨h, h3⟩)
    · have : ¬ b s < a s := fun h' => h1 (Or.inl h')
      have : ¬ c s < b s := fun h' => h2 (Or.inl h')
      omega
    · have : ¬ b s < a s := fun h' => h1 (Or.inl h')
      have : ¬ c s < b s := fun h' => h2 (Or.inl h')
      have hab : b s = a s := by omega
      have hcb : c s = b s := by omega
      exact lexLt_trans k (s + 1) a b c (fun h' => h1 (Or.inr ⟨hab, h'⟩))
        (fun h' => h2 (Or.inr ⟨hcb, h'⟩)) h3

theorem lexLt_irrefl_eq : ∀ (k s : Nat) (a b : Nat → Int), LexLt s k b a → ¬ LexEq s k a b := by
  rintro k s a b ⟨i, hi, _, hlt⟩ h
  have := h i hi; omega

/-- C20: with an exact comparison of integers (C04), the scalar sort ends and returns a permutation of
the loops that is sorted by the current run of scalar dimensions and keeps the order of loops with
equal scalar vectors. `vec` gives the scalar vector of a loop. -/
theorem C20_scalar_sort {α : Type} (vec : α → Nat → Int) (icmp : Int → Int → Int)
    (hc : ICmpExact icmp) (level : Nat) (scaldims : List Bool) (scalar k : Nat)
    (hr : IsRun level scaldims scalar k) (l : List α) :
    ∃ res, (∀ fuel, l.length * l.length < fuel →
        bubble (fun x y => scalarGt icmp level scaldims scalar (vec x) (vec y)) fuel l = some res) ∧
      res.Perm l ∧
      res.Pairwise (fun x y => ¬ LexLt scalar k (vec y) (vec x)) ∧
      (∀ (P : α → Bool), (∀ x y, P x = true → P y = true → LexEq scalar k (vec x) (vec y)) →
        res.filter P = l.filter P) := by
  set gt : α → α → Bool := fun x y => scalarGt icmp level scaldims scalar (vec x) (vec y) with hgt
  have hspec : ∀ x y, gt x y = true ↔ LexLt scalar k (vec y) (vec x) := by
    intro x y
    rw [hgt]
    simp only [scalarGt, decide_eq_true_eq]
    exact (constantCmp_spec icmp hc level scaldims (vec x) (vec y) k scalar hr).1
  have hasym : ∀ x y, gt x y = true → gt y x = false := by
    intro x y h
    have h1 := (hspec x y).mp h
    by_contra h2
    have h2 := (hspec y x).mp (by simpa using h2)
    obtain ⟨i, hi, hi1, hi2⟩ := h1
    obtain ⟨j, hj, hj1, hj2⟩ := h2
    rcases lt_trichotomy i j with h | h | h
    · have := hj1 i h; omega
    · subst h; omega
    · have := hi1 j h; omega
  obtain ⟨res, hres⟩ := bubble_terminates gt hasym (l.length * l.length + 1) l
    (by have := inversions_le gt l; omega)
  have hall : ∀ fuel, l.length * l.length < fuel → bubble gt fuel l = some res := by
    have mono : ∀ (fuel fuel' : Nat) (l : List α), fuel ≤ fuel' → bubble gt fuel l = some res →
        bubble gt fuel' l = some res := by
      intro fuel
      induction fuel with
      | zero => intro _ _ _ h; cases h
      | succ fuel ih =>
        intro fuel' l hle h
        match fuel' with
        | 0 => omega
        | fuel' + 1 =>
          unfold bubble at h ⊢
          split at h
          · rename_i hok; rw [if_pos hok]; exact h
          · rename_i hok; rw [if_neg hok]; exact ih fuel' _ (by omega) h
    intro fuel hf
    exact mono _ _ _ hf hres
  obtain ⟨h1, h2, h3⟩ := bubble_spec gt _ l res hres
  refine ⟨res, hall, h1, ?_, ?_⟩
  · have htr : IsTrans α (fun x y => ¬ LexLt scalar k (vec y) (vec x)) :=
      ⟨fun a b c h1 h2 => lexLt_trans k scalar (vec a) (vec b) (vec c) h1 h2⟩
    apply List.IsChain.pairwise
    refine h2.imp ?_
    intro x y hxy hlt
    rw [(hspec x y).mpr hlt] at hxy; cases hxy
  · intro P hP
    apply h3 P
    intro x y hg ⟨hx, hy⟩
    exact lexLt_irrefl_eq k scalar (vec x) (vec y) ((hspec x y).mp hg) (hP x y hx hy)

-- two scalar dimensions after level 1, vectors with equal and different entries
example : IsRun 1 [true, true, false] 0 2 := by unfold IsRun; decide
example : bubble (fun x y : Nat × List Int => scalarGt gmpCmp 1 [true, true, false] 0
      (fun i => x.2.getD i 0) (fun i => y.2.getD i 0)) 17 [(0, [2, 1]), (1, [1, 5]), (2, [2, 0]), (3, [1, 5])] =
    some [(1, [1, 5]), (3, [1, 5]), (2, [2, 0]), (0, [2, 1])] := by decide

/-- The sort inherits C04: with the fixed-width comparison, scalar values that are far apart are left
in the wrong order. -/
theorem C20_fixed_width :
    bubble (fun x y : Int => scalarGt llCmp 1 [true] 0 (fun _ => x) (fun _ => y)) 5 [2863311530, 0] =
      some [2863311530, 0] := by decide

end Verif.Props.ScalarSort
