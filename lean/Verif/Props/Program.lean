import Verif.Model.Program
import Mathlib.Data.List.Basic
import Mathlib.Data.List.Pairwise
import Mathlib.Data.List.InsertIdx
import Mathlib.Tactic.SplitIfs

/-!
# C37, C38, C50: scalar dimensions and blocks

The specification gives each statement an execution date for every point of its domain: the value of
its scattering function.  Dates are compared lexicographically.
-/

namespace Verif.Props.Program
open Verif.Program

/-- Lexicographic order on dates. -/
def before : List Int → List Int → Prop
  | [], [] => False
  | [], _ :: _ => True
  | _ :: _, [] => False
  | a :: s, b :: t => a < b ∨ (a = b ∧ before s t)

/-- The dates of a statement list make it injective: no two different instances share a date. -/
def Injective {S Pt : Type} (date : S → Pt → List Int) (ss : List S) : Prop :=
  ss.Pairwise (fun s t => ∀ x y, date s x ≠ date t y) ∧ ∀ s ∈ ss, ∀ x y, date s x = date s y → x = y

/-- What the isl questions mean (`Pt`: the points of the iteration domains): only their positive answers are trusted. -/
structure Laws {D S Pt : Type} (o : Ops D S) (mem : D → Pt → Prop) (date : S → Pt → List Int) : Prop where
  length : ∀ s x, (date s x).length = o.nScat s
  lazyEqual : ∀ d e, o.lazyEqual d e = true → ∀ x, mem d x ↔ mem e x
  fixedDelta : ∀ s t i c, o.fixedDelta s t i = some c →
    ∀ x u v, (date s x)[i]? = some u → (date t x)[i]? = some v → v = u + c
  injective : ∀ ss, o.injective ss = true → Injective date ss
  isScalar : ∀ s i v, o.isScalar s i = some v → ∀ x, (date s x)[i]? = some v
  erase : ∀ s i x, date (o.erase s i) x = (date s x).eraseIdx i

variable {D S Pt : Type} {o : Ops D S} {mem : D → Pt → Prop} {date : S → Pt → List Int}

/-! ## Blocking before scattering -/

/-- Add `j` to the last entry. -/
def shift : List Int → Nat → List Int
  | [], _ => []
  | [a], j => [a + j]
  | a :: b :: t, j => a :: shift (b :: t) j

theorem shift_zero : ∀ t : List Int, shift t 0 = t
  | [] => rfl
  | [a] => by simp [shift]
  | a :: b :: t => by simp [shift, shift_zero (b :: t)]

theorem shift_shift (i j : Nat) : ∀ t : List Int, shift (shift t i) j = shift t (i + j)
  | [] => rfl
  | [a] => by simp [shift]; omega
  | [a, b] => by simp [shift]; omega
  | a :: b :: c :: t => by
    have := shift_shift i j (b :: c :: t)
    simp only [shift] at this ⊢
    rw [this]

theorem shift_length (j : Nat) : ∀ t : List Int, (shift t j).length = t.length
  | [] => rfl
  | [a] => rfl
  | a :: b :: t => by simp [shift, shift_length j (b :: t)]

theorem shift_cons (a : Int) (t : List Int) (ht : t ≠ []) (j : Nat) : shift (a :: t) j = a :: shift t j := by
  cases t with
  | nil => exact absurd rfl ht
  | cons b t => rfl

/-- Comparing shifted dates. -/
theorem before_shift (i j : Nat) : ∀ (s t : List Int), s.length = t.length →
    before (shift s i) (shift t j) →
      before s t ∨ (s = t ∧ i < j) ∨ ∃ k, 0 < k ∧ k + i < j ∧ s = shift t k
  | [], [], _, h => by simp [shift, before] at h
  | [], _ :: _, hl, _ => by simp at hl
  | _ :: _, [], hl, _ => by simp at hl
  | [a], [b], _, h => by
    simp only [shift, before, and_false, or_false] at h
    by_cases h1 : a < b
    · exact .inl (.inl h1)
    · by_cases h2 : a = b
      · subst h2; exact .inr (.inl ⟨rfl, by omega⟩)
      · refine .inr (.inr ⟨(a - b).toNat, by omega, by omega, ?_⟩)
        simp only [shift, List.cons.injEq, and_true]; omega
  | [a], b :: c :: t, hl, _ => by simp at hl
  | a :: b :: s, [c], hl, _ => by simp at hl
  | a :: b :: s, c :: d :: t, hl, h => by
    simp only [shift, before] at h
    rcases h with h | ⟨rfl, h⟩
    · exact .inl (.inl h)
    · rcases before_shift i j (b :: s) (d :: t) (by simpa using hl) h with h | ⟨h, h'⟩ | ⟨k, h1, h2, h3⟩
      · exact .inl (.inr ⟨rfl, h⟩)
      · exact .inr (.inl ⟨by rw [h], h'⟩)
      · exact .inr (.inr ⟨k, h1, h2, by rw [h3]; rfl⟩)

theorem shift_getElem? (j : Nat) : ∀ (t : List Int) (i : Nat),
    (shift t j)[i]? = (t[i]?).map (fun a : Int => if i + 1 = t.length then a + (j : Int) else a)
  | [], i => by simp [shift]
  | [a], i => by
    cases i <;> simp [shift]
  | a :: b :: t, i => by
    cases i with
    | zero => simp [shift]
    | succ i => simp [shift, shift_getElem? j (b :: t) i]

theorem lazyBlockGo_spec (s1 s2 : S) (all : List S) (n : Nat) : ∀ (fuel i : Nat), i + fuel = n →
    lazyBlockGo o s1 s2 all n i fuel = true →
      (∀ j, i ≤ j → j < n → o.fixedDelta s1 s2 j = some 0) ∨
      ((∀ j, i ≤ j → j + 1 < n → o.fixedDelta s1 s2 j = some 0) ∧ o.fixedDelta s1 s2 (n - 1) = some 1 ∧
        o.injective all = true ∧ 0 < n)
  | 0, i, hn, _ => .inl (fun j h1 h2 => by omega)
  | fuel + 1, i, hn, h => by
    simp only [lazyBlockGo] at h
    cases hf : o.fixedDelta s1 s2 i with
    | none => rw [hf] at h; simp at h
    | some c =>
      rw [hf] at h
      simp only at h
      by_cases hc : c = 0
      · rw [if_pos hc] at h
        subst hc
        rcases lazyBlockGo_spec s1 s2 all n fuel (i + 1) (by omega) h with h | ⟨h1, h2⟩
        · left
          intro j hj hn'
          by_cases e : j = i
          · rw [e]; exact hf
          · exact h j (by omega) hn'
        · right
          refine ⟨?_, h2⟩
          intro j hj hn'
          by_cases e : j = i
          · rw [e]; exact hf
          · exact h1 j (by omega) hn'
      · rw [if_neg hc] at h
        by_cases h1 : i + 1 < n
        · rw [if_pos h1] at h; simp at h
        · rw [if_neg h1] at h
          by_cases h2 : c ≠ 1
          · rw [if_pos h2] at h; simp at h
          · rw [if_neg h2] at h
            by_cases h3 : (!o.injective all) = true
            · rw [if_pos h3] at h; simp at h
            · right
              have hi : n - 1 = i := by omega
              refine ⟨fun j hj hn' => by omega, ?_, by simpa using h3, by omega⟩
              rw [hi, hf]; simpa using h2

/-- What a positive answer of `lazyBlock` means. -/
theorem lazyBlock_spec (W : Laws o mem date) (s1 s2 : S) (all : List S)
    (h : lazyBlock o s1 s2 all = true) :
    (∀ x, date s2 x = date s1 x) ∨ ((∀ x, date s2 x = shift (date s1 x) 1) ∧ Injective date all) := by
  unfold lazyBlock at h
  by_cases hn : o.nScat s1 ≠ o.nScat s2
  · rw [if_pos hn] at h; simp at h
  · rw [if_neg hn] at h
    have hn : o.nScat s1 = o.nScat s2 := by simpa using hn
    rcases lazyBlockGo_spec s1 s2 all _ _ 0 (by omega) h with h | ⟨h1, h2, h3, h4⟩
    · left
      intro x
      have l1 := W.length s1 x
      have l2 := W.length s2 x
      apply List.ext_getElem? 
      intro i
      by_cases hi : i < o.nScat s1
      · have e1 : (date s1 x)[i]? = some ((date s1 x)[i]'(by omega)) := List.getElem?_eq_getElem _
        have e2 : (date s2 x)[i]? = some ((date s2 x)[i]'(by omega)) := List.getElem?_eq_getElem _
        have := W.fixedDelta s1 s2 i 0 (h i (by omega) hi) x _ _ e1 e2
        rw [e1, e2, this]; simp
      · have e1 : (date s1 x)[i]? = none := List.getElem?_eq_none (by omega)
        have e2 : (date s2 x)[i]? = none := List.getElem?_eq_none (by omega)
        rw [e1, e2]
    · right
      refine ⟨?_, W.injective all h3⟩
      intro x
      have l1 := W.length s1 x
      have l2 := W.length s2 x
      apply List.ext_getElem? 
      intro i
      rw [shift_getElem?]
      by_cases hi : i < o.nScat s1
      · have e1 : (date s1 x)[i]? = some ((date s1 x)[i]'(by omega)) := List.getElem?_eq_getElem _
        have e2 : (date s2 x)[i]? = some ((date s2 x)[i]'(by omega)) := List.getElem?_eq_getElem _
        by_cases he : i + 1 = o.nScat s1
        · have hz : i = o.nScat s1 - 1 := by omega
          have := W.fixedDelta s1 s2 i 1 (by rw [hz]; exact h2) x _ _ e1 e2
          rw [e1, e2, this]; simp [l1, he]
        · have := W.fixedDelta s1 s2 i 0 (h1 i (by omega) (by omega)) x _ _ e1 e2
          rw [e1, e2, this]; simp [l1, he]
      · have e1 : (date s1 x)[i]? = none := List.getElem?_eq_none (by omega)
        have e2 : (date s2 x)[i]? = none := List.getElem?_eq_none (by omega)
        rw [e1, e2]; rfl

/-- A block being built: its nodes, last first, with the offset of their dates. -/
inductive Grp (mem : D → Pt → Prop) (date : S → Pt → List Int) (a : Item D S) :
    List (Item D S × Nat) → Prop
  | one : Grp mem date a [(a, 0)]
  | same {r l : Item D S} {j : Nat} {t : List (Item D S × Nat)} : Grp mem date a ((r, j) :: t) →
      (∀ x, mem r.dom x ↔ mem l.dom x) → (∀ x, date l.scat x = date r.scat x) →
      Grp mem date a ((l, j) :: (r, j) :: t)
  | next {r l : Item D S} {j : Nat} {t : List (Item D S × Nat)} : Grp mem date a ((r, j) :: t) →
      (∀ x, mem r.dom x ↔ mem l.dom x) → (∀ x, date l.scat x = shift (date r.scat x) 1) →
      Grp mem date a ((l, j + 1) :: (r, j) :: t)

theorem Grp.dates {a : Item D S} {g} (h : Grp mem date a g) : ∀ c j, (c, j) ∈ g →
    (∀ x, mem a.dom x ↔ mem c.dom x) ∧ ∀ x, date c.scat x = shift (date a.scat x) j := by
  induction h with
  | one =>
    intro c j hc
    simp only [List.mem_singleton, Prod.mk.injEq] at hc
    obtain ⟨rfl, rfl⟩ := hc
    exact ⟨fun _ => Iff.rfl, fun x => (shift_zero _).symm⟩
  | same _ hd ht ih =>
    intro c j hc
    rcases List.mem_cons.1 hc with hc | hc
    · simp only [Prod.mk.injEq] at hc
      obtain ⟨rfl, rfl⟩ := hc
      obtain ⟨i1, i2⟩ := ih _ _ List.mem_cons_self
      exact ⟨fun x => (i1 x).trans (hd x), fun x => (ht x).trans (i2 x)⟩
    · exact ih c j hc
  | next _ hd ht ih =>
    intro c j hc
    rcases List.mem_cons.1 hc with hc | hc
    · simp only [Prod.mk.injEq] at hc
      obtain ⟨rfl, rfl⟩ := hc
      obtain ⟨i1, i2⟩ := ih _ _ List.mem_cons_self
      exact ⟨fun x => (i1 x).trans (hd x), fun x => by rw [ht x, i2 x, shift_shift]⟩
    · exact ih c j hc

theorem Grp.offsets {a : Item D S} {g} (h : Grp mem date a g) :
    g.Pairwise (fun p q => q.2 ≤ p.2) ∧ (∀ p ∈ g, ∀ k ≤ p.2, ∃ c, (c, k) ∈ g) := by
  induction h with
  | one =>
    refine ⟨by simp, ?_⟩
    intro p hp k hk
    simp only [List.mem_singleton] at hp
    subst hp
    exact ⟨a, by simp; omega⟩
  | @same r l j t _ _ _ ih =>
    refine ⟨List.pairwise_cons.2 ⟨?_, ih.1⟩, ?_⟩
    · intro q hq
      rcases List.mem_cons.1 hq with rfl | hq
      · exact Nat.le_refl _
      · exact (List.pairwise_cons.1 ih.1).1 q hq
    · intro p hp k hk
      rcases List.mem_cons.1 hp with rfl | hp
      · obtain ⟨c, hc⟩ := ih.2 (r, j) List.mem_cons_self k hk
        exact ⟨c, List.mem_cons_of_mem _ hc⟩
      · obtain ⟨c, hc⟩ := ih.2 p hp k hk
        exact ⟨c, List.mem_cons_of_mem _ hc⟩
  | @next r l j t _ _ _ ih =>
    refine ⟨List.pairwise_cons.2 ⟨?_, ih.1⟩, ?_⟩
    · intro q hq
      rcases List.mem_cons.1 hq with rfl | hq
      · exact Nat.le_succ _
      · exact Nat.le_trans ((List.pairwise_cons.1 ih.1).1 q hq) (Nat.le_succ _)
    · intro p hp k hk
      rcases List.mem_cons.1 hp with rfl | hp
      · by_cases e : k = j + 1
        · exact ⟨l, by simp [e]⟩
        · obtain ⟨c, hc⟩ := ih.2 (r, j) List.mem_cons_self k (by simp at hk ⊢; omega)
          exact ⟨c, List.mem_cons_of_mem _ hc⟩
      · obtain ⟨c, hc⟩ := ih.2 p hp k hk
        exact ⟨c, List.mem_cons_of_mem _ hc⟩

theorem Grp.last {a : Item D S} {g} (h : Grp mem date a g) : ∃ t, g = t ++ [(a, 0)] := by
  induction h with
  | one => exact ⟨[], rfl⟩
  | same _ _ _ ih => obtain ⟨t, ht⟩ := ih; exact ⟨_ :: t, by rw [ht]; rfl⟩
  | next _ _ _ ih => obtain ⟨t, ht⟩ := ih; exact ⟨_ :: t, by rw [ht]; rfl⟩

/-- The loop a group of nodes becomes. -/
def blockOf (a : Item D S) (g : List (Item D S × Nat)) : Item D S :=
  { a with stmts := (g.reverse.map Prod.fst).flatMap Item.stmts }

/-- Facts about a list of groups (each with its first node) and the scatterings still in the list. -/
structure Good (mem : D → Pt → Prop) (date : S → Pt → List Int)
    (gs : List (Item D S × List (Item D S × Nat))) (L : List S) : Prop where
  grp : ∀ p ∈ gs, Grp mem date p.1 p.2
  inj : (∃ p ∈ gs, ∃ q ∈ p.2, 0 < q.2) → Injective date L
  free : ∀ p ∈ gs, ∀ q ∈ p.2, 0 < q.2 → ∀ s ∈ L, ∀ x y, date q.1.scat y ≠ date s x

theorem Injective.sublist {L L' : List S} (h : Injective date L) (hs : L'.Sublist L) :
    Injective date L' :=
  ⟨h.1.sublist hs, fun s m => h.2 s (hs.subset m)⟩

theorem Good.sublist {gs : List (Item D S × List (Item D S × Nat))} {L L' : List S}
    (h : Good mem date gs L) (hs : L'.Sublist L) : Good mem date gs L' :=
  ⟨h.grp, fun e => (h.inj e).sublist hs, fun p hp q hq hz s m => h.free p hp q hq hz s (hs.subset m)⟩

theorem blockGo_spec (W : Laws o mem date) : ∀ (rest : List (Item D S))
    (gs : List (Item D S × List (Item D S × Nat))) (a r : Item D S) (j : Nat) (t : List (Item D S × Nat)),
    Good mem date (gs ++ [(a, (r, j) :: t)])
      ((gs.map (fun p => p.1.scat)) ++ a.scat :: rest.map Item.scat) →
    ∃ gs', blockGo o (gs.reverse.map (fun p => blockOf p.1 p.2)) (blockOf a ((r, j) :: t)) r.dom r.scat rest
        = gs'.map (fun p => blockOf p.1 p.2) ∧
      gs'.flatMap (fun p => p.2.reverse.map Prod.fst)
        = (gs ++ [(a, (r, j) :: t)]).flatMap (fun p => p.2.reverse.map Prod.fst) ++ rest ∧
      Good mem date gs' (gs'.map (fun p => p.1.scat))
  | [], gs, a, r, j, t, hg => by
    refine ⟨gs ++ [(a, (r, j) :: t)], ?_, by simp, by simpa using hg⟩
    simp [blockGo, List.map_reverse]
  | l :: rest, gs, a, r, j, t, hg => by
    have hl : (((blockOf a ((r, j) :: t)) :: (gs.reverse.map (fun p => blockOf p.1 p.2))).reverse
        ++ l :: rest).map Item.scat
        = (gs.map (fun p => p.1.scat)) ++ a.scat :: (l :: rest).map Item.scat := by
      simp [List.map_reverse, blockOf, Function.comp_def]
    unfold blockGo
    rw [hl]
    by_cases hc : (o.lazyEqual r.dom l.dom && lazyBlock o r.scat l.scat
        ((gs.map (fun p => p.1.scat)) ++ a.scat :: (l :: rest).map Item.scat)) = true
    · rw [if_pos hc]
      rw [Bool.and_eq_true] at hc
      have hd := W.lazyEqual _ _ hc.1
      have hgr : Grp mem date a ((r, j) :: t) := hg.grp (a, (r, j) :: t) (by simp)
      have hsub : ((gs.map (fun p => p.1.scat)) ++ a.scat :: rest.map Item.scat).Sublist
          ((gs.map (fun p => p.1.scat)) ++ a.scat :: (l :: rest).map Item.scat) := by
        apply List.Sublist.append_left
        apply List.Sublist.cons_cons
        exact List.sublist_cons_self _ _
      have hg' := hg.sublist hsub
      have key : ∀ j', (∀ x, mem r.dom x ↔ mem l.dom x) →
          Good mem date (gs ++ [(a, (l, j') :: (r, j) :: t)])
            ((gs.map (fun p => p.1.scat)) ++ a.scat :: rest.map Item.scat) →
          ∃ gs', blockGo o (gs.reverse.map (fun p => blockOf p.1 p.2))
              { blockOf a ((r, j) :: t) with stmts := (blockOf a ((r, j) :: t)).stmts ++ l.stmts }
              l.dom l.scat rest = gs'.map (fun p => blockOf p.1 p.2) ∧
            gs'.flatMap (fun p => p.2.reverse.map Prod.fst)
              = (gs ++ [(a, (r, j) :: t)]).flatMap (fun p => p.2.reverse.map Prod.fst) ++ l :: rest ∧
            Good mem date gs' (gs'.map (fun p => p.1.scat)) := by
        intro j' _ hg2
        obtain ⟨gs', e1, e2, e3⟩ := blockGo_spec W rest gs a l j' ((r, j) :: t) hg2
        refine ⟨gs', ?_, ?_, e3⟩
        · rw [← e1]
          congr 1
          simp [blockOf]
        · rw [e2]; simp
      have mem_gs : ∀ {p : Item D S × List (Item D S × Nat)} {X}, p ∈ gs ++ [X] → p ∈ gs ∨ p = X := by
        intro p X hp
        simpa using hp
      rcases lazyBlock_spec W _ _ _ hc.2 with hs | ⟨hs, hinj⟩
      · apply key j hd
        refine ⟨?_, ?_, ?_⟩
        · intro p hp
          rcases mem_gs hp with hp | rfl
          · exact hg.grp p (by simp [hp])
          · exact .same hgr hd hs
        · rintro ⟨p, hp, q, hq, hz⟩
          apply hg'.inj
          rcases mem_gs hp with hp | rfl
          · exact ⟨p, by simp [hp], q, hq, hz⟩
          · rcases List.mem_cons.1 hq with rfl | hq
            · exact ⟨_, List.mem_append_right _ List.mem_cons_self, (r, j), List.mem_cons_self, hz⟩
            · exact ⟨_, List.mem_append_right _ List.mem_cons_self, q, hq, hz⟩
        · intro p hp q hq hz s hm x y
          rcases mem_gs hp with hp | rfl
          · exact hg'.free p (by simp [hp]) q hq hz s hm x y
          · rcases List.mem_cons.1 hq with rfl | hq
            · rw [hs]
              exact hg'.free _ (List.mem_append_right _ List.mem_cons_self) (r, j) List.mem_cons_self hz
                s hm x y
            · exact hg'.free _ (List.mem_append_right _ List.mem_cons_self) q hq hz s hm x y
      · apply key (j + 1) hd
        refine ⟨?_, ?_, ?_⟩
        · intro p hp
          rcases mem_gs hp with hp | rfl
          · exact hg.grp p (by simp [hp])
          · exact .next hgr hd hs
        · intro _
          exact hinj.sublist hsub
        · intro p hp q hq hz s hm x y
          rcases mem_gs hp with hp | rfl
          · exact hg'.free p (by simp [hp]) q hq hz s hm x y
          · rcases List.mem_cons.1 hq with rfl | hq
            · have hpw := hinj.1
              rw [List.map_cons, List.append_cons, List.append_cons, List.append_assoc,
                List.pairwise_append] at hpw
              obtain ⟨hp1, hp2, hp3⟩ := hpw
              rw [List.append_cons, List.mem_append] at hm
              simp only [List.singleton_append] at hp2 hp3
              rcases hm with hm | hm
              · exact (hp3 s hm l.scat List.mem_cons_self x y).symm
              · exact (List.pairwise_cons.1 hp2).1 s hm y x
            · exact hg'.free _ (List.mem_append_right _ List.mem_cons_self) q hq hz s hm x y
    · rw [if_neg hc]
      have hg2 : Good mem date ((gs ++ [(a, (r, j) :: t)]) ++ [(l, [(l, 0)])])
          (((gs ++ [(a, (r, j) :: t)]).map (fun p => p.1.scat)) ++ l.scat :: rest.map Item.scat) := by
        have hL : ((gs ++ [(a, (r, j) :: t)]).map (fun p => p.1.scat)) ++ l.scat :: rest.map Item.scat
            = (gs.map (fun p => p.1.scat)) ++ a.scat :: (l :: rest).map Item.scat := by simp
        rw [hL]
        have mem_gs : ∀ {p : Item D S × List (Item D S × Nat)} {G X}, p ∈ G ++ [X] → p ∈ G ∨ p = X := by
          intro p G X hp
          simpa using hp
        refine ⟨?_, ?_, ?_⟩
        · intro p hp
          rcases mem_gs hp with hp | rfl
          · exact hg.grp p hp
          · exact .one
        · rintro ⟨p, hp, q, hq, hz⟩
          rcases mem_gs hp with hp | rfl
          · exact hg.inj ⟨p, hp, q, hq, hz⟩
          · simp only [List.mem_singleton] at hq; subst hq; simp at hz
        · intro p hp q hq hz s hm x y
          rcases mem_gs hp with hp | rfl
          · exact hg.free p hp q hq hz s hm x y
          · simp only [List.mem_singleton] at hq; subst hq; simp at hz
      obtain ⟨gs', e1, e2, e3⟩ := blockGo_spec W rest (gs ++ [(a, (r, j) :: t)]) l l 0 [] hg2
      refine ⟨gs', ?_, ?_, e3⟩
      · rw [← e1]
        simp [blockOf]
      · rw [e2]; simp

/-- The order of dates is kept by a list of groups: `a` is number `k` of group number `g`. -/
def KeepsOrder (mem : D → Pt → Prop) (date : S → Pt → List Int) (groups : List (List (Item D S)))
    (blocks : List (Item D S)) : Prop :=
  ∀ (g h k l : Nat) (G H : List (Item D S)) (A B a b : Item D S) (x y : Pt),
    groups[g]? = some G → groups[h]? = some H → blocks[g]? = some A → blocks[h]? = some B →
    G[k]? = some a → H[l]? = some b → mem a.dom x → mem b.dom y →
    before (date a.scat x) (date b.scat y) →
      before (date A.scat x) (date B.scat y) ∨ (g = h ∧ x = y ∧ k < l)

/-- **C38.** `cloog_program_block` cuts the statement list into groups of neighbours, without loss,
    duplication or reordering; each group becomes one loop whose block has the statements of the group
    in order; the domain is the same set of points for all of them.  The execution dates still order
    the instances as before: an instance that had to come before another one comes before it by the
    dates of the loops, or both are in the same block at the same point and it comes first there. -/
theorem C38_program_block (W : Laws o mem date)
    (items : List (Item D S))
    (hdim : ∀ a ∈ items, ∀ b ∈ items, o.nScat a.scat = o.nScat b.scat) :
    ∃ groups : List (List (Item D S)), groups.flatten = items ∧ (∀ G ∈ groups, G ≠ []) ∧
      (programBlock o items).map Item.stmts = groups.map (fun G => G.flatMap Item.stmts) ∧
      (∀ (g : Nat) (G : List (Item D S)) (A : Item D S), groups[g]? = some G → (programBlock o items)[g]? = some A →
        ∀ a ∈ G, ∀ x, mem A.dom x ↔ mem a.dom x) ∧
      KeepsOrder mem date groups (programBlock o items) := by
  cases items with
  | nil => exact ⟨[], rfl, by simp, rfl, by simp, by intro g h k l G H A B a b x y h1; simp at h1⟩
  | cons s rest =>
    have hg0 : Good mem date ([] ++ [(s, [(s, 0)])])
        ((([] : List (Item D S × List (Item D S × Nat))).map (fun p => p.1.scat)) ++
          s.scat :: rest.map Item.scat) := by
      refine ⟨?_, ?_, ?_⟩
      · intro p hp; simp only [List.nil_append, List.mem_singleton] at hp; subst hp; exact .one
      · rintro ⟨p, hp, q, hq, hz⟩
        simp only [List.nil_append, List.mem_singleton] at hp; subst hp
        simp only [List.mem_singleton] at hq; subst hq; simp at hz
      · intro p hp q hq hz
        simp only [List.nil_append, List.mem_singleton] at hp; subst hp
        simp only [List.mem_singleton] at hq; subst hq; simp at hz
    obtain ⟨gs, e1, e2, hg⟩ := blockGo_spec W rest [] s s 0 [] hg0
    have hpb : programBlock o (s :: rest) = gs.map (fun p => blockOf p.1 p.2) := by
      rw [← e1]
      simp [programBlock, blockOf]
    have hhead : ∀ p ∈ gs, p.1 ∈ s :: rest := by
      intro p hp
      obtain ⟨t, ht⟩ := (hg.grp p hp).last
      have : p.1 ∈ gs.flatMap (fun p => p.2.reverse.map Prod.fst) :=
        List.mem_flatMap.2 ⟨p, hp, by rw [ht]; simp⟩
      rw [e2] at this
      simpa using this
    rw [hpb]
    refine ⟨gs.map (fun p => p.2.reverse.map Prod.fst), ?_, ?_, ?_, ?_, ?_⟩
    · rw [← List.flatMap_def, e2]; simp
    · intro G hG
      obtain ⟨p, hp, rfl⟩ := List.mem_map.1 hG
      obtain ⟨t, ht⟩ := (hg.grp p hp).last
      simp [ht]
    · simp [blockOf, Function.comp_def]
    · intro g G A h1 h2 a ha x
      rw [List.getElem?_map] at h1 h2
      cases hgg : gs[g]? with
      | none => rw [hgg] at h1; simp at h1
      | some p =>
        rw [hgg] at h1 h2
        simp only [Option.map_some, Option.some.injEq] at h1 h2
        subst h1; subst h2
        have hp := List.mem_of_getElem? hgg
        simp only [List.mem_map, List.mem_reverse] at ha
        obtain ⟨q, hq, rfl⟩ := ha
        exact ((hg.grp p hp).dates q.1 q.2 hq).1 x
    · intro g h k l G H A B a b x y h1 h2 h3 h4 h5 h6 hx hy hb
      rw [List.getElem?_map] at h1 h2 h3 h4
      cases hgg : gs[g]? with
      | none => rw [hgg] at h1; simp at h1
      | some p =>
      cases hhh : gs[h]? with
      | none => rw [hhh] at h2; simp at h2
      | some q =>
        rw [hgg] at h1 h3
        rw [hhh] at h2 h4
        simp only [Option.map_some, Option.some.injEq] at h1 h2 h3 h4
        subst h1; subst h2; subst h3; subst h4
        have hp := List.mem_of_getElem? hgg
        have hq := List.mem_of_getElem? hhh
        rw [List.getElem?_map] at h5 h6
        cases h5' : p.2.reverse[k]? with
        | none => rw [h5'] at h5; simp at h5
        | some a' =>
        cases h6' : q.2.reverse[l]? with
        | none => rw [h6'] at h6; simp at h6
        | some b' =>
          rw [h5'] at h5
          rw [h6'] at h6
          simp only [Option.map_some, Option.some.injEq] at h5 h6
          subst h5; subst h6
          have ma : a' ∈ p.2 := by
            have := List.mem_of_getElem? h5'
            simpa using this
          have mb : b' ∈ q.2 := by
            have := List.mem_of_getElem? h6'
            simpa using this
          have da := ((hg.grp p hp).dates a'.1 a'.2 ma).2 x
          have db := ((hg.grp q hq).dates b'.1 b'.2 mb).2 y
          rw [da, db] at hb
          have hlen : (date p.1.scat x).length = (date q.1.scat y).length := by
            rw [W.length, W.length]; exact hdim _ (hhead p hp) _ (hhead q hq)
          simp only [blockOf]
          rcases before_shift _ _ _ _ hlen hb with hlt | ⟨heq, hj⟩ | ⟨m, hm0, hm1, hm⟩
          · exact .inl hlt
          · right
            have hI : Injective date (gs.map (fun p => p.1.scat)) := hg.inj ⟨q, hq, b', mb, by omega⟩
            have hgh : g = h := by
              by_contra hne
              have hgl : g < gs.length := (List.getElem?_eq_some_iff.1 hgg).1
              have hhl : h < gs.length := (List.getElem?_eq_some_iff.1 hhh).1
              have hge := (List.getElem?_eq_some_iff.1 hgg).2
              have hhe := (List.getElem?_eq_some_iff.1 hhh).2
              have hpw := List.pairwise_iff_getElem.1 hI.1
              rcases Nat.lt_or_gt_of_ne hne with hlt | hlt
              · have := hpw g h (by simpa using hgl) (by simpa using hhl) hlt x y
                simp [hge, hhe] at this
                exact this heq
              · have := hpw h g (by simpa using hhl) (by simpa using hgl) hlt y x
                simp [hge, hhe] at this
                exact this heq.symm
            subst hgh
            rw [hgg] at hhh
            simp only [Option.some.injEq] at hhh
            subst hhh
            refine ⟨rfl, hI.2 p.1.scat (List.mem_map.2 ⟨p, hp, rfl⟩) x y heq, ?_⟩
            by_contra hkl
            have hoff := (hg.grp p hp).offsets.1
            rw [← List.pairwise_reverse] at hoff
            by_cases hkk : l = k
            · subst hkk
              rw [h5'] at h6'
              simp only [Option.some.injEq] at h6'
              subst h6'
              omega
            · have hlk : l < k := by omega
              have hkl' : k < p.2.reverse.length := (List.getElem?_eq_some_iff.1 h5').1
              have hll' : l < p.2.reverse.length := (List.getElem?_eq_some_iff.1 h6').1
              have := List.pairwise_iff_getElem.1 hoff l k hll' hkl' hlk
              rw [(List.getElem?_eq_some_iff.1 h5').2, (List.getElem?_eq_some_iff.1 h6').2] at this
              omega
          · exfalso
            obtain ⟨c, hc⟩ := (hg.grp q hq).offsets.2 b' mb m (by omega)
            have dc := ((hg.grp q hq).dates c m hc).2 y
            exact hg.free q hq (c, m) hc hm0 p.1.scat (List.mem_map.2 ⟨p, hp, rfl⟩) x y (by rw [dc, hm])

/-! ## Scalar dimensions -/

/-- Put the scalar values at the flagged positions, the other values elsewhere. -/
def interleave : List Bool → List Int → List Int → List Int
  | [], _, _ => []
  | true :: f, vs, t => vs.take 1 ++ interleave f vs.tail t
  | false :: f, vs, t => t.take 1 ++ interleave f vs t.tail

theorem interleave_true : ∀ (f : List Bool) (vs t : List Int) (v : Int), vs.length = f.count true →
    interleave (f ++ [true]) (vs ++ [v]) t = interleave f vs t ++ [v]
  | [], vs, t, v, h => by
    simp only [List.count_nil, List.length_eq_zero_iff] at h; subst h; simp [interleave]
  | true :: f, vs, t, v, h => by
    cases vs with
    | nil => simp at h
    | cons u vs =>
      have := interleave_true f vs t v (by simpa using h)
      simpa [interleave] using this
  | false :: f, vs, t, v, h => by
    have := interleave_true f vs t.tail v (by simpa using h)
    simp [interleave, this]

theorem interleave_false : ∀ (f : List Bool) (vs t : List Int) (a : Int), t.length = f.count false →
    interleave (f ++ [false]) vs (t ++ [a]) = interleave f vs t ++ [a]
  | [], vs, t, v, h => by
    simp only [List.count_nil, List.length_eq_zero_iff] at h; subst h; simp [interleave]
  | true :: f, vs, t, v, h => by
    have := interleave_false f vs.tail t v (by simpa using h)
    simp [interleave, this]
  | false :: f, vs, t, v, h => by
    cases t with
    | nil => simp at h
    | cons u t =>
      have := interleave_false f vs t v (by simpa using h)
      simpa [interleave] using this

theorem extractOne_spec (W : Laws o mem date) (x0 : Pt) (flags : List Bool) : ∀ (i : Nat) (s : S) (acc vs : List Int)
    (s' : S), i ≤ flags.length → i ≤ o.nScat s → extractOne o flags i s acc = some (vs, s') →
    ∃ new, vs = new ++ acc ∧ new.length = (flags.take i).count true ∧
      ∀ x, (date s x).take i = interleave (flags.take i) new
          ((date s' x).take ((flags.take i).count false)) ∧
        (date s x).drop i = (date s' x).drop ((flags.take i).count false) ∧
        (flags.take i).count false ≤ (date s' x).length
  | 0, s, acc, vs, s', _, _, h => by
    simp only [extractOne, Option.some.injEq, Prod.mk.injEq] at h
    obtain ⟨rfl, rfl⟩ := h
    exact ⟨[], by simp, by simp, by intro x; simp [interleave]⟩
  | i + 1, s, acc, vs, s', hf, hs, h => by
    have hget : flags[i]? = some (flags[i]'(by omega)) := List.getElem?_eq_getElem _
    have htake : flags.take (i + 1) = flags.take i ++ [flags[i]'(by omega)] := by
      rw [List.take_succ, hget]; rfl
    simp only [extractOne, hget, Option.getD_some] at h
    by_cases hb : flags[i]'(by omega) = true
    · rw [if_pos hb] at h
      rw [htake, hb]
      cases hi : o.isScalar s i with
      | none => simp [takeScalar, hi] at h
      | some v =>
        simp only [takeScalar, hi, Option.map_some] at h
        have hdate := W.isScalar s i v hi
        have hlen : i ≤ o.nScat (o.erase s i) := by
          rw [← W.length _ x0, W.erase, List.length_eraseIdx, W.length]
          split_ifs <;> omega
        obtain ⟨new, e1, e2, e3⟩ := extractOne_spec W x0 flags i (o.erase s i) (v :: acc) vs s' (by omega) hlen h
        refine ⟨new ++ [v], by simp [e1], by simp [e2], ?_⟩
        intro x
        obtain ⟨f1, f2, f3⟩ := e3 x
        have hx := hdate x
        have hl : i < (date s x).length := by rw [W.length]; omega
        rw [W.erase] at f1 f2
        have hcf : (flags.take i ++ [true]).count false = (flags.take i).count false := by simp
        rw [hcf, interleave_true _ _ _ _ e2, ← f1, ← f2]
        refine ⟨?_, ?_, f3⟩
        · rw [List.take_succ, hx, List.eraseIdx_eq_take_drop_succ, List.take_append_of_le_length (by simp; omega),
            List.take_take, Nat.min_self]
          rfl
        · rw [List.eraseIdx_eq_take_drop_succ, List.drop_append_of_le_length (by simp; omega),
            List.drop_take]
          simp
    · rw [if_neg hb] at h
      have hb : flags[i]'(by omega) = false := by simpa using hb
      rw [htake, hb]
      obtain ⟨new, e1, e2, e3⟩ := extractOne_spec W x0 flags i s acc vs s' (by omega) (by omega) h
      refine ⟨new, e1, by simp [e2], ?_⟩
      intro x
      obtain ⟨f1, f2, f3⟩ := e3 x
      have hl : i < (date s x).length := by rw [W.length]; omega
      have hcf : (flags.take i ++ [false]).count false = (flags.take i).count false + 1 := by simp
      have hlen := congrArg List.length f2
      simp only [List.length_drop] at hlen
      have hl' : (flags.take i).count false < (date s' x).length := by omega
      have hx : (date s x)[i]? = some ((date s x)[i]) := List.getElem?_eq_getElem _
      have hx' : (date s' x)[(flags.take i).count false]? = some ((date s x)[i]) := by
        rw [← hx, ← List.head?_drop, ← List.head?_drop, f2]
      rw [hcf, List.take_succ (l := date s' x), hx']
      simp only [Option.toList_some]
      rw [interleave_false _ _ _ _ (by simp; omega), ← f1]
      refine ⟨by rw [List.take_succ, hx]; rfl, ?_, by omega⟩
      have := congrArg (List.drop 1) f2
      simpa [List.drop_drop] using this

/-- The entry of `scaldims` at a dimension: zero for a dimension that was kept, otherwise the number of
    consecutive extracted dimensions from there. -/
def IsRunLength (flags : List Bool) (i r : Nat) : Prop :=
  (∀ k, k < r → flags[i + k]? = some true) ∧ flags[i + r]? ≠ some true

theorem runLengths_spec : ∀ (flags : List Bool) (i : Nat), i < flags.length →
    ∃ r, (runLengths flags)[i]? = some r ∧ IsRunLength flags i r
  | [], i, h => by simp at h
  | false :: f, i, h => by
    cases i with
    | zero => exact ⟨0, by simp [runLengths], by simp [IsRunLength]⟩
    | succ i =>
      obtain ⟨r, h1, h2, h3⟩ := runLengths_spec f i (by simpa using h)
      refine ⟨r, by simpa [runLengths] using h1, ?_, ?_⟩
      · intro k hk
        have := h2 k hk
        rw [show i + 1 + k = i + k + 1 by omega]; simpa using this
      · rw [show i + 1 + r = i + r + 1 by omega]; simpa using h3
  | true :: f, i, h => by
    cases i with
    | zero =>
      refine ⟨1 + (f.takeWhile id).length, by simp [runLengths], ?_, ?_⟩
      · intro k hk
        cases k with
        | zero => simp
        | succ k =>
          have hk' : k < (f.takeWhile id).length := by omega
          have hp : (f.takeWhile id) <+: f := List.takeWhile_prefix _
          have hm : (f.takeWhile id)[k] ∈ f.takeWhile id := List.getElem_mem _
          have ht := (List.all_eq_true.1 (List.all_takeWhile (p := id) (l := f))) _ hm
          obtain ⟨t, ht'⟩ := hp
          rw [show 0 + (k + 1) = k + 1 by omega, List.getElem?_cons_succ]
          conv_lhs => rw [← ht']
          rw [List.getElem?_append_left hk', List.getElem?_eq_getElem hk']
          simpa using ht
      · rw [show 0 + (1 + (f.takeWhile id).length) = (f.takeWhile id).length + 1 by omega,
          List.getElem?_cons_succ]
        have hap : f[(f.takeWhile id).length]? = (f.dropWhile id)[0]? := by
          have h0 := List.getElem?_append_right (l₁ := f.takeWhile id) (l₂ := f.dropWhile id)
            (Nat.le_refl (f.takeWhile id).length)
          rw [List.takeWhile_append_dropWhile, Nat.sub_self] at h0
          exact h0
        rw [hap]
        cases hd : f.dropWhile id with
        | nil => simp
        | cons b t =>
          have := List.head_dropWhile_not id (l := f) (by rw [hd]; simp)
          simp only [hd, List.head_cons, id_eq] at this
          simp [this]
    | succ i =>
      obtain ⟨r, h1, h2, h3⟩ := runLengths_spec f i (by simpa using h)
      refine ⟨r, by simpa [runLengths] using h1, ?_, ?_⟩
      · intro k hk
        have := h2 k hk
        rw [show i + 1 + k = i + k + 1 by omega]; simpa using this
      · rw [show i + 1 + r = i + r + 1 by omega]; simpa using h3

theorem mapM_getElem? {α β : Type} {f : α → Option β} : ∀ {l : List α} {r : List β}, l.mapM f = some r →
    l.length = r.length ∧ ∀ (k : Nat) a b, l[k]? = some a → r[k]? = some b → f a = some b
  | [], r, h => by simp at h; subst h; simp
  | a :: l, r, h => by
    rw [List.mapM_cons] at h
    cases hf : f a with
    | none => simp [hf] at h
    | some b =>
      cases hm : l.mapM f with
      | none => simp [hf, hm] at h
      | some bs =>
        simp [hf, hm] at h
        subst h
        obtain ⟨i1, i2⟩ := mapM_getElem? hm
        refine ⟨by simp [i1], ?_⟩
        intro k a' b' h1 h2
        cases k with
        | zero => simp at h1 h2; subst h1; subst h2; exact hf
        | succ k => exact i2 k a' b' (by simpa using h1) (by simpa using h2)

theorem interleave_none : ∀ (n : Nat) (t : List Int), t.length = n →
    interleave (List.replicate n false) [] t = t
  | 0, t, h => by simp only [List.length_eq_zero_iff] at h; simp [h, interleave]
  | n + 1, [], h => by simp at h
  | n + 1, a :: t, h => by
    have := interleave_none n t (by simpa using h)
    simp [List.replicate_succ, interleave, this]

theorem interleave_length : ∀ (f : List Bool) (vs t : List Int),
    (interleave f vs t).length = min vs.length (f.count true) + min t.length (f.count false)
  | [], vs, t => by simp [interleave]
  | true :: f, [], t => by
    have := interleave_length f [] t
    simp [interleave] at this ⊢; omega
  | true :: f, v :: vs, t => by
    have := interleave_length f vs t
    simp [interleave] at this ⊢; omega
  | false :: f, vs, [] => by
    have := interleave_length f vs []
    simp [interleave] at this ⊢; omega
  | false :: f, vs, v :: t => by
    have := interleave_length f vs t
    simp [interleave] at this ⊢; omega

theorem count_add (f : List Bool) : f.count true + f.count false = f.length := by
  induction f with
  | nil => rfl
  | cons b f ih => cases b <;> simp <;> omega

/-- **C37.** When `cloog_program_extract_scalars` succeeds, the dimensions marked are those found scalar
    for every statement, and the date of every instance is the date by the reduced scattering with the
    values stored in the block put back at the marked positions: comparing dates is the same before
    and after.  The `scaldims` array gives the lengths of the runs of extracted dimensions. -/
theorem C37_extract_scalars [Nonempty Pt] (W : Laws o mem date) (n : Nat) (ss : List S) (hn : ∀ s ∈ ss, o.nScat s = n)
    (sd : List Nat) (rs : List (List Int × S)) (h : extractScalars o n ss = some (sd, rs)) :
    ∃ flags : List Bool, flags.length = n ∧
      (∀ i : Nat, i < n → (flags[i]? = some true ↔ ∀ s ∈ ss, ∃ v, o.isScalar s i = some v)) ∧
      sd.length = n ∧ (∀ i r : Nat, sd[i]? = some r → IsRunLength flags i r) ∧
      rs.length = ss.length ∧
      ∀ (k : Nat) (s : S) (r : List Int × S), ss[k]? = some s → rs[k]? = some r →
        r.1.length = flags.count true ∧ o.nScat r.2 = flags.count false ∧
          ∀ x, date s x = interleave flags r.1 (date r.2 x) := by
  obtain ⟨x0⟩ := ‹Nonempty Pt›
  have hfl : (scalarFlags o n ss).length = n := by simp [scalarFlags]
  refine ⟨scalarFlags o n ss, hfl, ?_, ?_⟩
  · intro i hi
    simp [scalarFlags, hi, Option.isSome_iff_exists]
  unfold extractScalars at h
  simp only at h
  split_ifs at h with hany
  · cases hm : (ss.mapM fun s => extractOne o (scalarFlags o n ss) n s []) with
    | none => rw [hm] at h; simp at h
    | some r =>
      rw [hm] at h
      simp only [Option.map_some, Option.some.injEq, Prod.mk.injEq] at h
      obtain ⟨rfl, rfl⟩ := h
      obtain ⟨m1, m2⟩ := mapM_getElem? hm
      have hrl : ∀ f : List Bool, (runLengths f).length = f.length := by
        intro f
        induction f with
        | nil => rfl
        | cons b f ih => cases b <;> simp [runLengths, ih]
      refine ⟨by rw [hrl, hfl], ?_, m1.symm, ?_⟩
      · intro i r hr
        have hi : i < (scalarFlags o n ss).length := by
          have := (List.getElem?_eq_some_iff.1 hr).1
          rw [hrl] at this; exact this
        obtain ⟨r', h1, h2⟩ := runLengths_spec _ i hi
        rw [h1] at hr
        simp only [Option.some.injEq] at hr
        rw [← hr]; exact h2
      · intro k s r h1 h2
        have hk := m2 k s r h1 h2
        have hs := hn s (List.mem_of_getElem? h1)
        obtain ⟨new, e1, e2, e3⟩ := extractOne_spec W x0 _ n s [] r.1 r.2 (by omega) (by omega) hk
        rw [List.append_nil] at e1
        subst e1
        have htk : (scalarFlags o n ss).take n = scalarFlags o n ss := List.take_of_length_le (by omega)
        rw [htk] at e2 e3
        suffices hx : ∀ x, o.nScat r.2 = (scalarFlags o n ss).count false ∧
            date s x = interleave (scalarFlags o n ss) r.1 (date r.2 x) from
          ⟨e2, (hx x0).1, fun x => (hx x).2⟩
        intro x
        obtain ⟨f1, f2, f3⟩ := e3 x
        have hlen : (date s x).length = n := by rw [W.length, hs]
        rw [List.take_of_length_le (by omega)] at f1
        rw [List.drop_of_length_le (by omega)] at f2
        have := congrArg List.length f2
        simp only [List.length_nil, List.length_drop] at this
        rw [List.take_of_length_le (by omega)] at f1
        refine ⟨?_, f1⟩
        have hil := congrArg List.length f1
        rw [interleave_length, hlen, e2, W.length] at hil
        rw [W.length] at this
        have hcnt := count_add (scalarFlags o n ss)
        omega
  · simp only [Option.some.injEq, Prod.mk.injEq] at h
    obtain ⟨rfl, rfl⟩ := h
    have hall : scalarFlags o n ss = List.replicate n false := by
      rw [List.eq_replicate_iff]
      refine ⟨hfl, ?_⟩
      intro b hb
      simp only [List.any_eq_true, not_exists, not_and, id_eq] at hany
      have := hany b hb
      simpa using this
    refine ⟨by simp [hfl], ?_, by simp, ?_⟩
    · intro i r hr
      simp only [List.getElem?_map, Option.map_eq_some_iff] at hr
      obtain ⟨b, hb, rfl⟩ := hr
      refine ⟨by omega, ?_⟩
      rw [hall, Nat.add_zero]
      intro hc
      have := List.mem_of_getElem? hc
      simp at this
    · intro k s r h1 h2
      simp only [List.getElem?_map, h1, Option.map_some, Option.some.injEq] at h2
      subst h2
      refine ⟨by rw [hall, List.count_replicate]; simp, ?_, ?_⟩
      · rw [hall, List.count_replicate, hn s (List.mem_of_getElem? h1)]; simp
      intro x
      rw [hall, interleave_none]
      rw [W.length, hn s (List.mem_of_getElem? h1)]

/-- **C37**, no error: if erasing a later dimension never hides a scalar dimension, the extraction does
    not stop with an error. -/
theorem C37_no_error (hk : ∀ s i j v, i < j → o.isScalar s i = some v → ∃ v', o.isScalar (o.erase s j) i = some v')
    (n : Nat) (ss : List S) : ∃ r, extractScalars o n ss = some r := by
  have key : ∀ (flags : List Bool) (i : Nat) (s : S) (acc : List Int),
      (∀ k, k < i → flags[k]?.getD false = true → ∃ v, o.isScalar s k = some v) →
      ∃ r, extractOne o flags i s acc = some r := by
    intro flags i
    induction i with
    | zero => intro s acc _; exact ⟨_, rfl⟩
    | succ i ih =>
      intro s acc hs
      simp only [extractOne]
      split_ifs with hb
      · obtain ⟨v, hv⟩ := hs i (by omega) hb
        simp only [takeScalar, hv, Option.map_some]
        apply ih
        intro k hk' hb'
        obtain ⟨w, hw⟩ := hs k (by omega) hb'
        exact hk s k i w hk' hw
      · apply ih
        intro k hk' hb'
        exact hs k (by omega) hb'
  have hall : ∀ (l : List S), (∀ s ∈ l, s ∈ ss) →
      ∃ r, (l.mapM fun s => extractOne o (scalarFlags o n ss) n s []) = some r := by
    intro l
    induction l with
    | nil => intro _; exact ⟨[], rfl⟩
    | cons s l ih =>
      intro hl
      obtain ⟨r, hr⟩ := ih (fun t ht => hl t (List.mem_cons_of_mem _ ht))
      obtain ⟨q, hq⟩ := key (scalarFlags o n ss) n s [] (by
        intro k hkn hb
        simp [scalarFlags, hkn] at hb
        have := hb s (hl s List.mem_cons_self)
        rw [Option.isSome_iff_exists] at this
        exact this)
      exact ⟨q :: r, by rw [List.mapM_cons]; simp [hq, hr]⟩
  unfold extractScalars
  simp only
  split_ifs
  · obtain ⟨r, hr⟩ := hall ss (fun _ h => h)
    exact ⟨_, by rw [hr]; rfl⟩
  · exact ⟨_, rfl⟩

/-- Scatterings given by a list of entries, each a constant or the point's coordinate plus a constant. -/
def vecDate (s : List (Bool × Int)) (x : Int) : List Int := s.map fun c => if c.1 then x + c.2 else c.2

/-- Operations on such scatterings, domains being finite sets of integers.  A list of scatterings is
    found injective when each starts with the coordinate itself and ends with its own constant. -/
def vecOps : Ops (List Int) (List (Bool × Int)) where
  lazyEqual d e := decide (d = e)
  nScat s := s.length
  fixedDelta s t i :=
    match s[i]?, t[i]? with
    | some a, some b => if a.1 = b.1 then some (b.2 - a.2) else none
    | _, _ => none
  injective ss := decide (ss.Pairwise (fun s t => s[1]? ≠ t[1]?) ∧
    ∀ s ∈ ss, s.length = 2 ∧ s[0]? = some (true, 0) ∧ (s[1]?.map Prod.fst) = some false)
  isScalar s i := (s[i]?).bind fun c => if c.1 then none else some c.2
  erase s i := s.eraseIdx i
  scatter d _ := d
  isConst _ _ := false

theorem vecLaws : Laws vecOps (fun d x => x ∈ d) vecDate where
  length s x := by simp [vecDate, vecOps]
  lazyEqual d e h x := by simp only [vecOps, decide_eq_true_eq] at h; rw [h]
  fixedDelta s t i c h x u v hu hv := by
    simp only [vecDate, List.getElem?_map, Option.map_eq_some_iff] at hu hv
    obtain ⟨a, ha, rfl⟩ := hu
    obtain ⟨b, hb, rfl⟩ := hv
    simp only [vecOps, ha, hb] at h
    by_cases e : a.1 = b.1
    · rw [if_pos e] at h
      simp only [Option.some.injEq] at h
      rw [e]
      split_ifs
      · show x + b.2 = x + a.2 + c
        omega
      · show b.2 = a.2 + c
        omega
    · rw [if_neg e] at h; simp at h
  injective ss h := by
    simp only [vecOps, decide_eq_true_eq] at h
    obtain ⟨h1, h2⟩ := h
    have key : ∀ s ∈ ss, ∃ c, s = [(true, 0), (false, c)] := by
      intro s hs
      obtain ⟨l, g0, g1⟩ := h2 s hs
      match s, l with
      | [a, b], _ =>
        simp at g0 g1
        exact ⟨b.2, by rw [g0, ← g1]⟩
    refine ⟨?_, ?_⟩
    · refine List.Pairwise.imp_of_mem ?_ h1
      intro s t hs ht hne x y he
      obtain ⟨c, rfl⟩ := key s hs
      obtain ⟨d, rfl⟩ := key t ht
      simp [vecDate] at he hne
      exact hne he.2
    · intro s hs x y he
      obtain ⟨c, rfl⟩ := key s hs
      simpa [vecDate] using he
  isScalar s i v h x := by
    simp only [vecOps] at h
    cases hs : s[i]? with
    | none => simp [hs] at h
    | some c =>
      simp only [hs, Option.bind_some] at h
      split_ifs at h with hc
      simp only [Option.some.injEq] at h
      simp [vecDate, hs, hc, h]
  erase s i x := by simp [vecDate, vecOps, List.eraseIdx_map]

example : extractScalars vecOps 4 [[(false, 1), (false, 2), (true, 0), (false, 0)],
    [(false, 1), (false, 3), (false, 7), (false, 5)]]
    = some ([2, 1, 0, 1], [([1, 2, 0], [(true, 0)]), ([1, 3, 5], [(false, 7)])]) := by decide

example : (programBlock vecOps [⟨[0, 1], [(true, 0), (false, 0)], [1]⟩,
    ⟨[0, 1], [(true, 0), (false, 1)], [2]⟩, ⟨[0, 1], [(true, 0), (false, 4)], [3]⟩]).map Item.stmts
    = [[1, 2], [3]] := by decide

example : (programBlock vecOps [⟨[0, 1], [(true, 0), (false, 0)], [1]⟩,
    ⟨[0, 1], [(true, 0), (false, 1)], [2]⟩, ⟨[0, 1], [(true, 0), (false, 1)], [3]⟩]).map Item.stmts
    = [[1], [2, 3]] := by decide

end Verif.Props.Program
