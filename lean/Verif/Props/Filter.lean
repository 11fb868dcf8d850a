import Verif.Model.Filter
import Mathlib.Data.List.Perm.Subperm

/-!
# C34: loops and statements found by `clast_filter`
-/

namespace Verif.Props.Filter
open Verif.Filter

/-! ## Specification -/

mutual
/-- The numbers of the user statements in a statement list, at any depth. -/
def stmtsIn : List Node → List Int
  | [] => []
  | n :: rest => stmtsOf n ++ stmtsIn rest
/-- The numbers of the user statements in a statement. -/
def stmtsOf : Node → List Int
  | .root => []
  | .assign => []
  | .user k => [k]
  | .block body => stmtsIn body
  | .loop _ _ body => stmtsIn body
  | .guard thn => stmtsIn thn
end

mutual
/-- The loops in a statement list, at any depth: identity, iterator, body. -/
def loopsIn : List Node → List (Nat × String × List Node)
  | [] => []
  | n :: rest => loopsOf n ++ loopsIn rest
/-- The loops in a statement. -/
def loopsOf : Node → List (Nat × String × List Node)
  | .root => []
  | .assign => []
  | .user _ => []
  | .block body => loopsIn body
  | .loop id iter body => (id, iter, body) :: loopsIn body
  | .guard thn => loopsIn thn
end

mutual
/-- Neither assignments nor blocks occur. -/
def plainList : List Node → Bool
  | [] => true
  | n :: rest => plain n && plainList rest
/-- Neither assignments nor blocks occur in a statement. -/
def plain : Node → Bool
  | .root => true
  | .assign => false
  | .user _ => true
  | .block _ => false
  | .loop _ _ body => plainList body
  | .guard thn => plainList thn
end

/-- The filter accepts a loop with this iterator around this body: the iterator is the one asked for,
    and the statements in the body are among (`subset`) or exactly (`exact`) those of the filter. -/
def Accepts (f : Filt) (iter : String) (body : List Node) : Prop :=
  (∀ i, f.iter = some i → iter = i) ∧
  ∀ fs, f.stmts = some fs →
    (∀ a ∈ stmtsIn body, a ∈ fs) ∧ (f.ty = .exact → ∀ a ∈ fs, a ∈ stmtsIn body)

/-! ## Proofs -/

variable {α : Type} [DecidableEq α]

theorem mem_addIfNew {l : List α} {a x : α} : x ∈ addIfNew l a ↔ x ∈ l ∨ x = a := by
  unfold addIfNew
  split_ifs with h
  · constructor
    · exact Or.inl
    · rintro (h' | rfl)
      · exact h'
      · exact h
  · simp

theorem nodup_addIfNew {l : List α} {a : α} (h : l.Nodup) : (addIfNew l a).Nodup := by
  unfold addIfNew
  split_ifs with ha
  · exact h
  · rw [List.nodup_append]
    refine ⟨h, by simp, ?_⟩
    rintro x hx y hy rfl
    simp at hy
    exact ha (hy ▸ hx)

theorem mem_concatIfNew {m l : List α} {x : α} : x ∈ concatIfNew l m ↔ x ∈ l ∨ x ∈ m := by
  induction m generalizing l with
  | nil => simp [concatIfNew]
  | cons a m ih =>
    have : concatIfNew l (a :: m) = concatIfNew (addIfNew l a) m := rfl
    rw [this, ih, mem_addIfNew, List.mem_cons]
    tauto

theorem nodup_concatIfNew {m l : List α} (h : l.Nodup) : (concatIfNew l m).Nodup := by
  induction m generalizing l with
  | nil => exact h
  | cons a m ih => exact ih (nodup_addIfNew h)

theorem concat_stmts (r s : Res) (x : Int) : x ∈ (r.concat s).stmts ↔ x ∈ r.stmts ∨ x ∈ s.stmts :=
  mem_concatIfNew

theorem concat_loops (r s : Res) (x : Nat) : x ∈ (r.concat s).loops ↔ x ∈ r.loops ∨ x ∈ s.loops :=
  mem_concatIfNew

theorem concat_nodup {r s : Res} (h1 : r.loops.Nodup) (h2 : r.stmts.Nodup) :
    (r.concat s).loops.Nodup ∧ (r.concat s).stmts.Nodup :=
  ⟨nodup_concatIfNew h1, nodup_concatIfNew h2⟩

theorem filterNode_nodup (f : Filt) (n : Node) (r : Res) :
    (filterNode f n r).loops.Nodup ∧ (filterNode f n r).stmts.Nodup := by
  cases n with
  | root => unfold filterNode; exact concat_nodup List.nodup_nil List.nodup_nil
  | assign => exact ⟨List.nodup_nil, List.nodup_nil⟩
  | block b => exact ⟨List.nodup_nil, List.nodup_nil⟩
  | user k => unfold filterNode; exact concat_nodup List.nodup_nil (nodup_addIfNew List.nodup_nil)
  | guard t =>
    unfold filterNode
    obtain ⟨h1, h2⟩ := concat_nodup (r := ⟨[], []⟩) (s := filter f t) List.nodup_nil List.nodup_nil
    exact concat_nodup h1 h2
  | loop id it b =>
    unfold filterNode
    dsimp only
    obtain ⟨h1, h2⟩ := concat_nodup (r := ⟨[], []⟩) (s := filter f b) List.nodup_nil List.nodup_nil
    split_ifs
    · exact concat_nodup (nodup_addIfNew h1) h2
    · exact concat_nodup h1 h2

/-- **C34, no duplicates.**  For every tree and filter, neither result has duplicates. -/
theorem C34_no_duplicates (f : Filt) (l : List Node) :
    (filter f l).loops.Nodup ∧ (filter f l).stmts.Nodup := by
  cases l with
  | nil => unfold filter; exact ⟨List.nodup_nil, List.nodup_nil⟩
  | cons n l => unfold filter; exact filterNode_nodup f n _

mutual
theorem stmts_sound (f : Filt) : ∀ (l : List Node) (x : Int), x ∈ (filter f l).stmts → x ∈ stmtsIn l
  | [], x, h => by simp [filter] at h
  | n :: rest, x, h => by
    unfold filter at h
    unfold stmtsIn
    rw [List.mem_append]
    rcases stmtsNode_sound f n _ x h with h | h
    · exact Or.inl h
    · exact Or.inr (stmts_sound f rest x h)
theorem stmtsNode_sound (f : Filt) : ∀ (n : Node) (r : Res) (x : Int), x ∈ (filterNode f n r).stmts →
    x ∈ stmtsOf n ∨ x ∈ r.stmts
  | .root, r, x, h => by
    unfold filterNode at h
    rw [concat_stmts] at h
    simpa [stmtsOf] using h
  | .assign, r, x, h => by simp [filterNode] at h
  | .block _, r, x, h => by simp [filterNode] at h
  | .user k, r, x, h => by
    unfold filterNode at h
    rw [concat_stmts, mem_addIfNew] at h
    simpa [stmtsOf] using h
  | .guard t, r, x, h => by
    unfold filterNode at h
    rw [concat_stmts, concat_stmts] at h
    rcases h with (h | h) | h
    · simp at h
    · left; unfold stmtsOf; exact stmts_sound f t x h
    · exact Or.inr h
  | .loop id it b, r, x, h => by
    unfold filterNode at h
    dsimp only at h
    have e : (if wants f it (filter f b).stmts = true then
        { Res.concat ⟨[], []⟩ (filter f b) with
          loops := addIfNew (Res.concat ⟨[], []⟩ (filter f b)).loops id }
        else Res.concat ⟨[], []⟩ (filter f b)).stmts = (Res.concat ⟨[], []⟩ (filter f b)).stmts := by
      split_ifs <;> rfl
    rw [concat_stmts, e, concat_stmts] at h
    rcases h with (h | h) | h
    · simp at h
    · left; unfold stmtsOf; exact stmts_sound f b x h
    · exact Or.inr h
end

/-- **C34, statements, soundness.**  For every tree and filter, every statement number reported is that of
    a statement of the tree. -/
theorem C34_stmts_sound (f : Filt) (l : List Node) (x : Int) (h : x ∈ (filter f l).stmts) :
    x ∈ stmtsIn l := stmts_sound f l x h

mutual
theorem stmts_complete (f : Filt) : ∀ (l : List Node), plainList l = true → ∀ x : Int, x ∈ stmtsIn l →
    x ∈ (filter f l).stmts
  | [], _, x, h => by simp [stmtsIn] at h
  | n :: rest, hp, x, h => by
    unfold plainList at hp
    rw [Bool.and_eq_true] at hp
    unfold stmtsIn at h
    unfold filter
    rw [List.mem_append] at h
    apply stmtsNode_complete f n hp.1
    rcases h with h | h
    · exact Or.inl h
    · exact Or.inr (stmts_complete f rest hp.2 x h)
theorem stmtsNode_complete (f : Filt) : ∀ (n : Node), plain n = true → ∀ (r : Res) (x : Int),
    (x ∈ stmtsOf n ∨ x ∈ r.stmts) → x ∈ (filterNode f n r).stmts
  | .root, _, r, x, h => by
    unfold filterNode
    rw [concat_stmts]
    simpa [stmtsOf] using h
  | .assign, hp, r, x, h => by simp [plain] at hp
  | .block _, hp, r, x, h => by simp [plain] at hp
  | .user k, _, r, x, h => by
    unfold filterNode
    rw [concat_stmts, mem_addIfNew]
    simpa [stmtsOf] using h
  | .guard t, hp, r, x, h => by
    unfold plain at hp
    unfold stmtsOf at h
    unfold filterNode
    rw [concat_stmts, concat_stmts]
    rcases h with h | h
    · exact Or.inl (Or.inr (stmts_complete f t hp x h))
    · exact Or.inr h
  | .loop id it b, hp, r, x, h => by
    unfold plain at hp
    unfold stmtsOf at h
    unfold filterNode
    dsimp only
    have e : (if wants f it (filter f b).stmts = true then
        { Res.concat ⟨[], []⟩ (filter f b) with
          loops := addIfNew (Res.concat ⟨[], []⟩ (filter f b)).loops id }
        else Res.concat ⟨[], []⟩ (filter f b)).stmts = (Res.concat ⟨[], []⟩ (filter f b)).stmts := by
      split_ifs <;> rfl
    rw [concat_stmts, e, concat_stmts]
    rcases h with h | h
    · exact Or.inl (Or.inr (stmts_complete f b hp x h))
    · exact Or.inr h
end

theorem listCompare_nonpos (l m : List Int) : listCompare l m ≤ 0 ↔ ∀ a ∈ l, a ∈ m := by
  unfold listCompare
  by_cases h : (l.all fun a => decide (a ∈ m)) = true
  · rw [if_pos h]
    simp only [List.all_eq_true, decide_eq_true_eq] at h
    refine ⟨fun _ => h, fun _ => ?_⟩
    split_ifs <;> omega
  · rw [if_neg h]
    simp only [List.all_eq_true, decide_eq_true_eq] at h
    exact ⟨fun h' => by omega, fun h' => absurd h' h⟩

theorem listCompare_zero {l m : List Int} (hl : l.Nodup) (hm : m.Nodup) :
    listCompare l m = 0 ↔ ∀ a, a ∈ l ↔ a ∈ m := by
  unfold listCompare
  by_cases h : (l.all fun a => decide (a ∈ m)) = true
  · rw [if_pos h]
    simp only [List.all_eq_true, decide_eq_true_eq] at h
    have hsub : l.Subperm m := hl.subperm h
    by_cases hlen : l.length = m.length
    · rw [if_pos hlen]
      have := hsub.perm_of_length_le (by omega)
      exact ⟨fun _ a => this.mem_iff, fun _ => rfl⟩
    · rw [if_neg hlen]
      refine ⟨fun h' => by omega, fun h' => ?_⟩
      exfalso
      have := hm.subperm fun a ha => (h' a).2 ha
      have h1 := hsub.length_le
      have h2 := this.length_le
      omega
  · rw [if_neg h]
    simp only [List.all_eq_true, decide_eq_true_eq] at h
    exact ⟨fun h' => by omega, fun h' => absurd (fun a ha => (h' a).1 ha) h⟩

theorem wants_iff {f : Filt} (hf : ∀ fs, f.stmts = some fs → f.ty = .exact → fs.Nodup)
    {b : List Node} (hp : plainList b = true) (it : String) :
    wants f it (filter f b).stmts = true ↔ Accepts f it b := by
  have hmem : ∀ a, a ∈ (filter f b).stmts ↔ a ∈ stmtsIn b := fun a =>
    ⟨stmts_sound f b a, stmts_complete f b hp a⟩
  unfold wants Accepts
  rw [Bool.and_eq_true]
  apply and_congr
  · cases hi : f.iter with
    | none => simp
    | some i => simp
  · cases hs : f.stmts with
    | none => simp
    | some fs =>
      simp only [Option.some.injEq, forall_eq']
      cases ht : f.ty with
      | subset =>
        simp only [decide_true, Bool.true_and, reduceCtorEq, decide_false, Bool.false_and, Bool.or_false,
          decide_eq_true_eq, listCompare_nonpos, hmem, false_implies, and_true]
      | exact =>
        simp only [reduceCtorEq, decide_false, Bool.false_and, decide_true, Bool.true_and, Bool.false_or,
          decide_eq_true_eq, true_implies]
        rw [listCompare_zero (C34_no_duplicates f b).2 (hf fs hs ht)]
        simp only [hmem]
        exact ⟨fun h => ⟨fun a => (h a).1, fun a => (h a).2⟩, fun h a => ⟨h.1 a, h.2 a⟩⟩

mutual
theorem loops_spec {f : Filt} (hf : ∀ fs, f.stmts = some fs → f.ty = .exact → fs.Nodup) :
    ∀ (l : List Node), plainList l = true → ∀ x : Nat,
      (x ∈ (filter f l).loops ↔ ∃ it b, (x, it, b) ∈ loopsIn l ∧ Accepts f it b)
  | [], _, x => by simp [filter, loopsIn]
  | n :: rest, hp, x => by
    unfold plainList at hp
    rw [Bool.and_eq_true] at hp
    unfold filter loopsIn
    rw [loopsNode_spec hf n hp.1, loops_spec hf rest hp.2 x]
    constructor
    · rintro (⟨it, b, h1, h2⟩ | ⟨it, b, h1, h2⟩)
      · exact ⟨it, b, List.mem_append_left _ h1, h2⟩
      · exact ⟨it, b, List.mem_append_right _ h1, h2⟩
    · rintro ⟨it, b, h1, h2⟩
      rcases List.mem_append.1 h1 with h1 | h1
      · exact Or.inl ⟨it, b, h1, h2⟩
      · exact Or.inr ⟨it, b, h1, h2⟩
theorem loopsNode_spec {f : Filt} (hf : ∀ fs, f.stmts = some fs → f.ty = .exact → fs.Nodup) :
    ∀ (n : Node), plain n = true → ∀ (r : Res) (x : Nat), (x ∈ (filterNode f n r).loops ↔
      (∃ it b, (x, it, b) ∈ loopsOf n ∧ Accepts f it b) ∨ x ∈ r.loops)
  | .root, _, r, x => by
    unfold filterNode
    rw [concat_loops]
    simp [loopsOf]
  | .assign, hp, r, x => by simp [plain] at hp
  | .block _, hp, r, x => by simp [plain] at hp
  | .user k, _, r, x => by
    unfold filterNode
    rw [concat_loops]
    simp [loopsOf]
  | .guard t, hp, r, x => by
    unfold plain at hp
    unfold filterNode loopsOf
    rw [concat_loops, concat_loops, loops_spec hf t hp x]
    simp
  | .loop id it b, hp, r, x => by
    unfold plain at hp
    unfold filterNode loopsOf
    dsimp only
    rw [concat_loops]
    apply or_congr ?_ Iff.rfl
    have hb := loops_spec hf b hp x
    have hw := wants_iff hf hp it
    by_cases hc : wants f it (filter f b).stmts = true
    · rw [if_pos hc]
      show x ∈ addIfNew (Res.concat ⟨[], []⟩ (filter f b)).loops id ↔ _
      rw [mem_addIfNew, concat_loops, hb]
      constructor
      · rintro ((h | ⟨it', b', h1, h2⟩) | rfl)
        · simp at h
        · exact ⟨it', b', List.mem_cons_of_mem _ h1, h2⟩
        · exact ⟨it, b, List.mem_cons_self, hw.1 hc⟩
      · rintro ⟨it', b', h1, h2⟩
        rcases List.mem_cons.1 h1 with h1 | h1
        · cases h1; exact Or.inr rfl
        · exact Or.inl (Or.inr ⟨it', b', h1, h2⟩)
    · rw [if_neg hc, concat_loops, hb]
      constructor
      · rintro (h | ⟨it', b', h1, h2⟩)
        · simp at h
        · exact ⟨it', b', List.mem_cons_of_mem _ h1, h2⟩
      · rintro ⟨it', b', h1, h2⟩
        rcases List.mem_cons.1 h1 with h1 | h1
        · cases h1; exact absurd (hw.2 h2) hc
        · exact Or.inr ⟨it', b', h1, h2⟩
end

/-- **C34.**  In a tree without assignments and blocks, the statements reported are those of the tree, and
    the loops reported are those the filter accepts (for an exact filter: a list without duplicates).
    Partial: the full property is about all trees; it is false for trees with assignments or blocks
    (`C34_after_assignment`, `C34_wrong_loop`). -/
theorem C34_filter_partial (f : Filt) (l : List Node) (hp : plainList l = true)
    (hf : ∀ fs, f.stmts = some fs → f.ty = .exact → fs.Nodup) :
    (∀ x, x ∈ (filter f l).stmts ↔ x ∈ stmtsIn l) ∧
    ∀ x, x ∈ (filter f l).loops ↔ ∃ it b, (x, it, b) ∈ loopsIn l ∧ Accepts f it b :=
  ⟨fun x => ⟨stmts_sound f l x, stmts_complete f l hp x⟩, loops_spec hf l hp⟩

/-- Statements after an assignment are not found. -/
theorem C34_after_assignment : ∀ f l, (filter f (.assign :: l)).stmts = [] ∧
    (filter f (.assign :: l)).loops = [] := fun f l => by
  simp [filter, filterNode]

/-- Statements in a block, and after it, are not found. -/
theorem C34_after_block : ∀ f b l, (filter f (.block b :: l)).stmts = [] ∧
    (filter f (.block b :: l)).loops = [] := fun f b l => by
  simp [filter, filterNode]

/-- A loop around an assignment and statement 2 is reported for the filter {1}. -/
theorem C34_wrong_loop : ∃ f l, 7 ∈ (filter f l).loops ∧
    ¬ ∃ it b, (7, it, b) ∈ loopsIn l ∧ Accepts f it b := by
  refine ⟨⟨none, some [1], .subset⟩, [.loop 7 "i" [.assign, .user 2]], ?_, ?_⟩
  · simp [filter, filterNode, wants, listCompare, addIfNew, Res.concat, concatIfNew]
  · rintro ⟨it, b, h1, h2⟩
    simp [loopsIn, loopsOf] at h1
    obtain ⟨rfl, rfl⟩ := h1
    have := (h2.2 [1] rfl).1 2 (by simp [stmtsIn, stmtsOf])
    simp at this

/-- With duplicates in an exact filter the comparison of lengths goes wrong: the filter 1, 1 misses the
    loop around statement 1. -/
theorem C34_exact_duplicates : ∃ f l, plainList l = true ∧ (filter f l).loops = [] ∧
    ∃ it b, (7, it, b) ∈ loopsIn l ∧ Accepts f it b := by
  refine ⟨⟨none, some [1, 1], .exact⟩, [.loop 7 "i" [.user 1]], by simp [plainList, plain], ?_, ?_⟩
  · simp [filter, filterNode, wants, listCompare, addIfNew, Res.concat, concatIfNew]
  · refine ⟨"i", [.user 1], by simp [loopsIn, loopsOf], by simp, ?_⟩
    intro fs h
    simp only [Option.some.injEq] at h
    subst h
    simp [stmtsIn, stmtsOf]

/-- Two nested loops, two statements. -/
def sample : List Node :=
  [.root, .loop 1 "i" [.user 1, .guard [.loop 2 "j" [.user 2]]], .loop 3 "i" [.user 1]]

example : 2 ∈ (filter ⟨none, some [2], .exact⟩ sample).loops ∧
    1 ∉ (filter ⟨none, some [2], .exact⟩ sample).loops := by
  have h := (C34_filter_partial ⟨none, some [2], .exact⟩ sample (by
    simp [sample, plainList, plain]) (by intro fs h _; simp at h; simp [← h])).2
  rw [h, h]
  constructor
  · exact ⟨"j", [.user 2], by simp [sample, loopsIn, loopsOf], by simp, by
      intro fs h; simp at h; simp [← h, stmtsIn, stmtsOf]⟩
  · rintro ⟨it, b, h1, h2⟩
    simp [sample, loopsIn, loopsOf] at h1
    obtain ⟨rfl, rfl⟩ := h1
    have := (h2.2 [2] rfl).1 1 (by simp [stmtsIn, stmtsOf])
    simp at this

end Verif.Props.Filter
