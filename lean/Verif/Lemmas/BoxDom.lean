import Verif.Model.BoxDom
import Verif.Lemmas.Gen

/-! # The concrete domain type `BoxDom` satisfies `GenLaws` -/

namespace Verif.BoxDom

open Verif.Loop Verif.Gen

theorem code_take {n m : Nat} (h : n ≤ m) (x : Pt) : (code m x).take n = code n x := by
  unfold code
  rw [← List.map_take, List.take_range, Nat.min_eq_left h]

theorem code_getD {n i : Nat} (h : i < n) (x : Pt) : (code n x).getD i 0 = clamp (x i) := by
  simp [code, h]

theorem code_congr {n : Nat} {x y : Pt} (h : ∀ i, i < n → x i = y i) : code n x = code n y := by
  apply List.map_congr_left
  intro i hi
  rw [h i (List.mem_range.1 hi)]

theorem code_univ (x : Pt) : ∀ n, code n x ∈ univ n
  | 0 => by simp [code, univ]
  | n + 1 => by
    rw [univ, List.mem_flatMap]
    refine ⟨code n x, code_univ x n, ?_⟩
    have h : code (n + 1) x = code n x ++ [clamp (x n)] := by
      simp [code, List.range_succ]
    rw [h]
    have hc : clamp (x n) = 0 ∨ clamp (x n) = 1 ∨ clamp (x n) = 2 ∨ clamp (x n) = 3 ∨
        clamp (x n) = 4 := by
      unfold clamp; omega
    rcases hc with hc | hc | hc | hc | hc <;> simp [hc]

theorem univ_code : ∀ n v, v ∈ univ n → ∃ x : Pt, code n x = v
  | 0, v, h => by
    simp only [univ, List.mem_singleton] at h
    exact ⟨fun _ => 0, by simp [code, h]⟩
  | n + 1, v, h => by
    rw [univ, List.mem_flatMap] at h
    obtain ⟨w, hw, hv⟩ := h
    obtain ⟨x, rfl⟩ := univ_code n w hw
    have key : ∀ a : Int, clamp a = a → v = code n x ++ [a] → ∃ x : Pt, code (n + 1) x = v := by
      intro a ha hv
      refine ⟨Function.update x n a, ?_⟩
      have h1 : code n (Function.update x n a) = code n x := code_congr (fun i hi => by
        rw [Function.update_of_ne (by omega)])
      have h2 : code (n + 1) (Function.update x n a) =
          code n (Function.update x n a) ++ [clamp (Function.update x n a n)] := by
        simp [code, List.range_succ]
      rw [h2, h1, Function.update_self, ha, hv]
    simp only [List.mem_cons, List.not_mem_nil, or_false] at hv
    rcases hv with hv | hv | hv | hv | hv
    · exact key 0 (by decide) hv
    · exact key 1 (by decide) hv
    · exact key 2 (by decide) hv
    · exact key 3 (by decide) hv
    · exact key 4 (by decide) hv

theorem has_code {d : BD} {n : Nat} (h : d.dim ≤ n) (x : Pt) :
    d.has (code n x) = true ↔ mem d ((), x) := by
  unfold BD.has mem
  rw [decide_eq_true_iff, code_take h]

theorem dim_lift (d : BD) (n : Nat) : (d.lift n).dim = n := by
  unfold BD.lift
  split
  · rename_i h; exact h.symm
  · rfl

theorem mem_lift {d : BD} {n : Nat} (h : d.dim ≤ n) (px : Unit × Pt) : mem (d.lift n) px ↔ mem d px := by
  unfold BD.lift
  split
  · rfl
  · unfold mem BD.all
    simp only [List.mem_flatten, List.mem_map]
    constructor
    · rintro ⟨q, ⟨q', hq', rfl⟩, hx⟩
      rw [List.mem_filter, decide_eq_true_iff, code_take h] at hx
      exact ⟨q', hq', hx.2⟩
    · rintro ⟨q, hq, hx⟩
      refine ⟨_, ⟨q, hq, rfl⟩, ?_⟩
      rw [List.mem_filter, decide_eq_true_iff, code_take h]
      exact ⟨code_univ _ _, hx⟩

theorem mem_filter (d : BD) (p : List Int → Bool) (px : Unit × Pt) :
    mem (d.filter p) px ↔ mem d px ∧ p (code d.dim px.2) = true := by
  unfold mem BD.all BD.filter
  simp only [List.mem_flatten, List.mem_filter, List.mem_map]
  constructor
  · rintro ⟨l, ⟨⟨q, hq, rfl⟩, _⟩, hx⟩
    rw [List.mem_filter] at hx
    exact ⟨⟨q, hq, hx.1⟩, hx.2⟩
  · rintro ⟨⟨q, hq, hx⟩, hp⟩
    have hx' : code d.dim px.2 ∈ q.filter p := List.mem_filter.2 ⟨hx, hp⟩
    refine ⟨q.filter p, ⟨⟨q, hq, rfl⟩, ?_⟩, hx'⟩
    cases h : q.filter p with
    | nil => rw [h] at hx'; simp at hx'
    | cons => simp

theorem cmpAll_sound {r : Int → Int → Bool} {R : Int → Int → Prop}
    (hr : ∀ v w, r (clamp v) (clamp w) = true → R v w) {a b : BD} {L : Nat} (h0 : 0 < L)
    (h : cmpAll r a b L = true) (p : Unit) (x y : Pt) (hx : mem a (p, x)) (hy : mem b (p, y))
    (hxy : Agree L x y) : R (x (L - 1)) (y (L - 1)) := by
  unfold cmpAll at h
  simp only [Bool.and_eq_true, decide_eq_true_eq, List.all_eq_true, Bool.or_eq_true,
    Bool.not_eq_true', beq_eq_false_iff_ne] at h
  have := h.2 _ hx _ hy
  rw [code_take (by omega), code_take (by omega), code_getD (by omega), code_getD (by omega)] at this
  rcases this with h' | h'
  · exact absurd (code_congr (fun i hi => hxy i (by omega))) h'
  · exact hr _ _ h'

theorem le_clamp (v w : Int) (h : le (clamp v) (clamp w) = true) : v ≤ w := by
  unfold le clamp at h
  simp only [Bool.or_eq_true, Bool.and_eq_true, decide_eq_true_eq] at h
  omega

theorem lt_clamp (v w : Int) (h : decide (clamp v < clamp w) = true) : v < w := by
  unfold clamp at h
  simp only [decide_eq_true_eq] at h
  omega

theorem sorted_pairwise (ds : List BD) (L : Nat) : ∀ l : List Nat, sorted ds L l = true →
    l.Pairwise (fun i j => cmpAll le (ds.getD i ⟨0, []⟩) (ds.getD j ⟨0, []⟩) L = true)
  | [], _ => .nil
  | i :: l, h => by
    rw [sorted, Bool.and_eq_true, List.all_eq_true] at h
    exact .cons h.1 (sorted_pairwise ds L l h.2)

theorem mem_one (n : Nat) (px : Unit × Pt) : mem ⟨n, [univ n]⟩ px := by
  unfold mem BD.all
  simp [code_univ]

theorem laws : GenLaws ops mem where
  isEmpty d h px hx := by
    simp only [ops, List.all_eq_true, decide_eq_true_eq] at h
    exact h _ (code_univ _ _) hx
  simplifyUnion d x := Iff.rfl
  cutFirst d px := by
    simp only [ops, mem, BD.all, ← List.mem_append, ← List.flatten_append, List.take_append_drop]
  cutConvex d := by simp [ops]
  inter a b px := by
    show mem (BD.filter _ _) px ↔ _
    rw [mem_filter, mem_lift (by omega), dim_lift, has_code (by omega)]
  union a b px := by
    have h1 := mem_lift (d := a) (n := max a.dim b.dim) (by omega) px
    have h2 := mem_lift (d := b) (n := max a.dim b.dim) (by omega) px
    rw [← h1, ← h2]
    simp only [mem, BD.all, ops, dim_lift, List.flatten_append, List.mem_append]
  diff a b px := by
    show mem (BD.filter _ _) px ↔ _
    rw [mem_filter, mem_lift (by omega), dim_lift, Bool.not_eq_true', ← Bool.not_eq_true,
      has_code (by omega)]
  empty d px := by simp [ops, mem, BD.all]
  lazyEqual a b h px := by
    simp only [ops, decide_eq_true_eq] at h; rw [h]
  lazyDisjoint a b h px := by
    simp only [ops, Bool.or_eq_true, List.isEmpty_iff] at h
    rintro ⟨ha, hb⟩
    rcases h with h | h
    · simp [mem, h] at ha
    · simp [mem, h] at hb
  isEmpty_of d h := by
    simp only [ops, List.all_eq_true, decide_eq_true_eq]
    intro v hv hm
    obtain ⟨x, rfl⟩ := univ_code _ _ hv
    exact h ((), x) hm
  congr d p x y h hx := by
    have hc : code d.dim x = code d.dim y := code_congr h
    unfold mem at hx ⊢
    rw [← hc]
    exact hx
  dim_simplifyUnion d := rfl
  dim_cut d := ⟨rfl, rfl⟩
  dim_inter a b h := by
    show (BD.lift _ _).dim = _
    rw [dim_lift]
    simp only [ops] at h ⊢
    omega
  dim_union a b h := by simp only [ops] at h ⊢; omega
  dim_diff a b h := by
    show (BD.lift _ _).dim = _
    rw [dim_lift]
    simp only [ops] at h ⊢
    omega
  dim_empty d := rfl
  dim_lazyEqual a b h := by
    simp only [ops, decide_eq_true_eq] at h; rw [h]
  dim_extend d n h := by
    simp only [ops] at h ⊢
    rw [if_pos h, dim_lift]
  extend d n px h := by
    simp only [ops] at h ⊢
    rw [if_pos h, mem_lift h]
  dim_project d l h := rfl
  project d l px h hm := by
    simp only [ops, mem, BD.all, List.mem_flatten, List.mem_map] at hm h ⊢
    obtain ⟨q, hq, hx⟩ := hm
    refine ⟨_, ⟨q, hq, rfl⟩, ?_⟩
    rw [List.mem_eraseDups, List.mem_map]
    exact ⟨_, hx, code_take h _⟩
  dim_convex d := rfl
  convex d px h := by simpa [ops, mem, BD.all] using h
  dim_simpleConvex d := rfl
  simpleConvex d px h := by simpa [ops, mem, BD.all] using h
  splitter := by
    refine ⟨fun s => s = ⟨s.dim, [univ s.dim]⟩, fun d L => rfl, fun d L px => mem_one _ px,
      fun d L => rfl, ?_⟩
    intro s hs
    refine ⟨fun hc => ?_, fun t px opt _ => ?_, fun _ t px opt _ => ?_⟩
    · rw [hs] at hc
      simp [ops] at hc
    · rw [hs]
      exact mem_one _ px
    · rw [hs]
      exact mem_one _ px
  sort ds L perm h0 h := by
    simp only [ops] at h
    split at h
    · rename_i hc
      obtain rfl := Option.some.inj h
      refine ⟨List.isPerm_iff.1 hc.1, (sorted_pairwise ds L _ hc.2).imp ?_⟩
      intro i j hij a b ha hb p x y hx hy hxy
      rw [List.getD_eq_getElem?_getD, List.getD_eq_getElem?_getD, ha, hb] at hij
      exact cmpAll_sound (R := fun v w => v ≤ w) le_clamp h0 hij p x y hx hy hxy
    · exact absurd h (by simp)
  follows_le a b L h0 h p x y hx hy hxy := by
    simp only [ops] at h
    split at h
    · rename_i hc
      exact Int.le_of_lt (cmpAll_sound (R := fun v w => v < w) lt_clamp h0 hc p x y hx hy hxy)
    · split at h
      · rename_i hc
        exact cmpAll_sound (R := fun v w => v ≤ w) le_clamp h0 hc p x y hx hy hxy
      · omega
  follows_lt a b L h0 h p x y hx hy hxy := by
    simp only [ops] at h
    split at h
    · rename_i hc
      exact cmpAll_sound (R := fun v w => v < w) lt_clamp h0 hc p x y hx hy hxy
    · split at h <;> omega
  isConvex_convex d := by simp [ops]
  isConvex_simpleConvex d := by simp [ops]
  dim_fixedOffset d L c k := rfl
  unroll d L n c h0 _ _ h := by
    simp only [ops] at h
    split at h
    · rename_i hc
      obtain ⟨h1, h2⟩ := hc
      simp only [Option.some.injEq, Prod.mk.injEq] at h
      obtain ⟨rfl, _⟩ := h
      have key : ∀ p x, mem d (p, x) → 0 < x (L - 1) ∧ x (L - 1) < 4 ∧
          clamp (x (L - 1)) = x (L - 1) := by
        intro p x hm
        rw [List.all_eq_true] at h2
        have := h2 _ hm
        rw [code_getD (by omega)] at this
        simp only [Bool.and_eq_true, decide_eq_true_eq] at this
        unfold clamp at this ⊢
        omega
      refine ⟨fun _ _ => 1, fun _ _ _ _ => rfl, fun p x hm => ?_, fun k p x => ?_⟩
      · have := key p x hm
        show 1 ≤ x (L - 1) ∧ x (L - 1) < 1 + 3
        omega
      · show mem (BD.filter _ _) _ ↔ _
        rw [mem_filter, decide_eq_true_iff, code_getD (by omega)]
        constructor
        · rintro ⟨hm, hk⟩
          rw [(key p x hm).2.2] at hk
          exact ⟨hm, hk⟩
        · rintro ⟨hm, hk⟩
          exact ⟨hm, by rw [(key p x hm).2.2]; exact hk⟩
    · exact absurd h (by simp)
  icmp := Verif.Props.Expr.gmpCmp_exact

end Verif.BoxDom
