import Verif.Model.RefCount
import Mathlib.Data.List.Nodup
import Mathlib.Data.List.Perm.Basic
import Mathlib.Algebra.BigOperators.Group.Finset.Basic
import Mathlib.Algebra.Order.BigOperators.Group.Finset
import Mathlib.Data.Finset.Card

/-!
# C39: reference counting

The specification counts, in a history of calls, how many handles on each object the caller still
holds.  A history is well behaved when every call is made on objects the caller holds a handle on.
-/

namespace Verif.Props.RefCount
open Verif.RefCount

/-! ## Specification -/

/-- The call creates an object. -/
def isAlloc : Call → Bool
  | .alloc _ => true
  | _ => false

/-- The call makes a new handle on `a`. -/
def takes (a : Nat) : Call → Bool
  | .copy b => a == b
  | _ => false

/-- The call gives up a handle on `a`. -/
def gives (a : Nat) : Call → Bool
  | .free b => a == b
  | .merge _ b => a == b
  | _ => false

/-- The number of objects created. -/
def created (h : List Call) : Nat := h.countP isAlloc

/-- The number of handles held on the object created by allocation number `a` (from 0). -/
def own (h : List Call) (a : Nat) : Int :=
  (if a < created h then 1 else 0) + h.countP (takes a) - h.countP (gives a)

/-- The statements given to the allocations. -/
def given : List Call → List Nat
  | [] => []
  | .alloc ss :: h => ss ++ given h
  | _ :: h => given h

/-- After `h`, the call is made on objects the caller holds a handle on. -/
def legal (h : List Call) : Call → Prop
  | .alloc _ => True
  | .copy a => 0 < own h a
  | .free a => 0 < own h a
  | .merge a b => a ≠ b ∧ 0 < own h a ∧ 0 < own h b

/-- Every call of the history is legal when it is made. -/
def WellBehaved (h : List Call) : Prop :=
  ∀ pre c post, h = pre ++ c :: post → legal pre c

/-- The number of objects with a handle held. -/
def live (h : List Call) : Nat := (List.range (created h)).countP (fun a => decide (0 < own h a))

/-! ## Lemmas -/

theorem run_append (k : Kind) (h g : List Call) (s : St) :
    run k (h ++ g) s = (run k h s).bind (run k g) := by
  induction h generalizing s with
  | nil => rfl
  | cons c cs ih =>
    simp only [List.cons_append, run]
    cases step k c s with
    | none => rfl
    | some s' => simpa using ih s'

theorem created_append (h g) : created (h ++ g) = created h + created g := by
  simp [created]

theorem given_append (h g) : given (h ++ g) = given h ++ given g := by
  induction h with
  | nil => rfl
  | cons c cs ih => cases c <;> simp [given, ih]

theorem wb_prefix {h g} (w : WellBehaved (h ++ g)) : WellBehaved h := by
  intro pre c post e
  exact w pre c (post ++ g) (by simp [e])

theorem wb_last {h c} (w : WellBehaved (h ++ [c])) : legal h c := w h c [] rfl

theorem own_alloc (h ss a) :
    own (h ++ [.alloc ss]) a = own h a + if a = created h then 1 else 0 := by
  simp only [own, created_append, List.countP_append]
  simp [created, isAlloc, takes, gives]
  split_ifs <;> omega

theorem own_copy (h b a) : own (h ++ [.copy b]) a = own h a + if a = b then 1 else 0 := by
  simp only [own, created_append, List.countP_append]
  simp [created, isAlloc, takes, gives]
  split_ifs <;> simp_all <;> omega

theorem own_free (h b a) : own (h ++ [.free b]) a = own h a - if a = b then 1 else 0 := by
  simp only [own, created_append, List.countP_append]
  simp [created, isAlloc, takes, gives]
  split_ifs <;> simp_all <;> omega

theorem own_merge (h x b a) : own (h ++ [.merge x b]) a = own h a - if a = b then 1 else 0 := by
  simp only [own, created_append, List.countP_append]
  simp [created, isAlloc, takes, gives]
  split_ifs <;> simp_all <;> omega

/-- The statements an address holds. -/
def stmtsAt (s : St) (a : Nat) : List Nat :=
  match s.heap a with
  | none => []
  | some o => o.stmts

/-- The state agrees with the history, apart from the largest number of live blocks. -/
structure Inv (h : List Call) (s : St) : Prop where
  next : s.next = created h
  nonneg : ∀ a, 0 ≤ own h a
  fresh : ∀ a, created h ≤ a → own h a = 0
  dead : ∀ a, own h a = 0 → s.heap a = none
  alive : ∀ a, 0 < own h a → ∃ o, s.heap a = some o ∧ o.refs = own h a
  nodup : s.released.Nodup
  rel : ∀ a, a ∈ s.released ↔ a < created h ∧ own h a = 0
  allocated : s.allocated = created h
  freed : s.freed = s.released.length
  stmts : ∀ x, s.stmtsFreed.count x + ∑ a ∈ Finset.range (created h), (stmtsAt s a).count x
    = (given h).count x

theorem inv_live {h s} (i : Inv h s) : s.allocated - s.freed = live h := by
  have hp : s.released.Perm ((List.range (created h)).filter (fun a => !decide (0 < own h a))) := by
    rw [List.perm_ext_iff_of_nodup i.nodup (List.nodup_range.filter _)]
    intro a
    rw [i.rel]
    have := i.nonneg a
    simp only [List.mem_filter, List.mem_range, Bool.not_eq_true', decide_eq_false_iff_not, not_lt]
    constructor
    · rintro ⟨h1, h2⟩; exact ⟨h1, by omega⟩
    · rintro ⟨h1, h2⟩; exact ⟨h1, by omega⟩
  have hl := hp.length_eq
  rw [← List.countP_eq_length_filter] at hl
  have ht := List.length_eq_countP_add_countP (fun a => decide (0 < own h a)) (l := List.range (created h))
  rw [List.length_range] at ht
  have he : List.countP (fun a => !decide (0 < own h a)) (List.range (created h))
      = List.countP (fun a => decide ¬(decide (0 < own h a)) = true) (List.range (created h)) := by
    apply List.countP_congr
    intro a _
    simp
  rw [i.allocated, i.freed, hl, live, he]
  omega

theorem releases_iff (k : Kind) (r : Int) (h : 0 ≤ r) : releases k r = true ↔ r = 0 := by
  cases k <;> simp [releases] <;> omega

theorem count_update (n : Nat) (f : Nat → Nat) (a : Nat) (v : Nat) (ha : a < n) :
    ∑ x ∈ Finset.range n, (if x = a then v else f x) + f a = ∑ x ∈ Finset.range n, f x + v := by
  have hm : a ∈ Finset.range n := Finset.mem_range.2 ha
  rw [← Finset.add_sum_erase _ _ hm, ← Finset.add_sum_erase (Finset.range n) f hm]
  have : ∑ x ∈ (Finset.range n).erase a, (if x = a then v else f x)
      = ∑ x ∈ (Finset.range n).erase a, f x := by
    apply Finset.sum_congr rfl
    intro x hx
    rw [if_neg (Finset.ne_of_mem_erase hx)]
  rw [this, if_pos rfl]
  omega

theorem stmtsAt_update (s : St) (a : Nat) (v : Option Obj) (x : Nat) (s' : St)
    (hs : s'.heap = Function.update s.heap a v) (b : Nat) :
    (stmtsAt s' b).count x
      = if b = a then (match v with | none => [] | some o => o.stmts).count x
        else (stmtsAt s b).count x := by
  unfold stmtsAt
  rw [hs]
  by_cases hb : b = a
  · subst hb; simp
  · simp [Function.update_of_ne hb, hb]

/-- Freeing a held object. -/
theorem inv_free {k h s a h'} (i : Inv h s) (ha : 0 < own h a) (hc : created h' = created h)
    (ho : ∀ b, own h' b = own h b - if b = a then 1 else 0) (hg : given h' = given h) :
    ∃ s', free k a s = some s' ∧ Inv h' s' ∧ s'.max = s.max := by
  obtain ⟨o, h1, h2⟩ := i.alive a ha
  have hlt : a < created h := by
    by_contra hh
    have := i.fresh a (by omega)
    omega
  unfold free
  rw [h1]
  simp only
  have hsa : stmtsAt s a = o.stmts := by simp [stmtsAt, h1]
  by_cases hr : releases k (o.refs - 1) = true
  · rw [if_pos hr]
    have h0 : own h a = 1 := by
      rw [releases_iff k _ (by omega)] at hr
      omega
    refine ⟨_, rfl, ⟨?_, ?_, ?_, ?_, ?_, ?_, ?_, ?_, ?_, ?_⟩, rfl⟩
    · simpa [hc] using i.next
    · intro b; rw [ho]; have := i.nonneg b
      split_ifs with e
      · subst e; omega
      · omega
    · intro b hb; rw [ho]; have := i.fresh b (by omega)
      rw [if_neg (by omega)]; omega
    · intro b hb
      rw [ho] at hb
      by_cases e : b = a
      · subst e; simp
      · simp only [Function.update_of_ne e]
        apply i.dead; simpa [e] using hb
    · intro b hb
      rw [ho] at hb ⊢
      by_cases e : b = a
      · subst e; simp at hb; omega
      · simp only [e, if_false, sub_zero, Function.update_of_ne e] at hb ⊢
        exact i.alive b hb
    · refine List.nodup_cons.2 ⟨?_, i.nodup⟩
      rw [i.rel]; omega
    · intro b
      simp only [List.mem_cons, i.rel, hc, ho]
      by_cases e : b = a
      · subst e; simp; omega
      · simp [e]
    · simpa [hc] using i.allocated
    · simp [i.freed]
    · intro x
      have hs := i.stmts x
      have hu := count_update (created h) (fun b => (stmtsAt s b).count x) a 0 hlt
      rw [hc, hg, ← hs]
      have e1 : ∀ b, (stmtsAt { s with
        heap := Function.update s.heap a none
        freed := s.freed + 1
        released := a :: s.released
        stmtsFreed := o.stmts ++ s.stmtsFreed } b).count x
          = if b = a then 0 else (stmtsAt s b).count x := by
        intro b
        rw [stmtsAt_update s a none x _ rfl]; simp
      simp only [e1, List.count_append]
      simp only [hsa] at hu
      omega
  · rw [if_neg hr]
    have h0 : own h a ≠ 1 := by
      rw [releases_iff k _ (by omega)] at hr
      omega
    refine ⟨_, rfl, ⟨?_, ?_, ?_, ?_, ?_, ?_, ?_, ?_, ?_, ?_⟩, rfl⟩
    · simpa [hc] using i.next
    · intro b; rw [ho]; have := i.nonneg b
      split_ifs with e
      · subst e; omega
      · omega
    · intro b hb; rw [ho]; have := i.fresh b (by omega)
      rw [if_neg (by omega)]; omega
    · intro b hb
      rw [ho] at hb
      by_cases e : b = a
      · subst e; simp at hb; omega
      · simp only [Function.update_of_ne e]
        apply i.dead; simpa [e] using hb
    · intro b hb
      rw [ho] at hb ⊢
      by_cases e : b = a
      · subst e; simp [h2]
      · simp only [e, if_false, sub_zero, Function.update_of_ne e] at hb ⊢
        exact i.alive b hb
    · exact i.nodup
    · intro b
      simp only [i.rel, hc, ho]
      by_cases e : b = a
      · subst e; simp; omega
      · simp [e]
    · simpa [hc] using i.allocated
    · exact i.freed
    · intro x
      have hs := i.stmts x
      rw [hc, hg, ← hs]
      congr 1
      apply Finset.sum_congr rfl
      intro b _
      rw [stmtsAt_update s a _ x _ rfl]
      split_ifs with e
      · subst e; simp [hsa]
      · rfl

theorem created_eq (h : List Call) (c : Call) (hc : isAlloc c = false) :
    created (h ++ [c]) = created h := by
  simp [created, hc]

/-- One legal call. -/
theorem inv_step {k h s c} (i : Inv h s) (hl : legal h c) :
    ∃ s', step k c s = some s' ∧ Inv (h ++ [c]) s' ∧
      s'.max = (if isAlloc c then (if s.allocated + 1 - s.freed > s.max then s.allocated + 1 - s.freed
        else s.max) else s.max) := by
  cases c with
  | alloc ss =>
    have hcr : created (h ++ [.alloc ss]) = created h + 1 := by simp [created, isAlloc]
    have hn := i.next
    refine ⟨_, rfl, ⟨?_, ?_, ?_, ?_, ?_, ?_, ?_, ?_, ?_, ?_⟩, by simp [alloc, isAlloc]⟩
    · simp [alloc, hn, hcr]
    · intro b; rw [own_alloc]; have := i.nonneg b; split_ifs <;> omega
    · intro b hb; rw [own_alloc]; rw [hcr] at hb
      have := i.fresh b (by omega); rw [if_neg (by omega)]; omega
    · intro b hb; rw [own_alloc] at hb
      have := i.nonneg b
      by_cases e : b = created h
      · simp [e] at hb; subst e; omega
      · simp only [alloc, hn, Function.update_of_ne e]
        apply i.dead; simpa [e] using hb
    · intro b hb; rw [own_alloc] at hb ⊢
      by_cases e : b = created h
      · subst e
        have := i.fresh (created h) (by omega)
        exact ⟨⟨1, ss⟩, by simp [alloc, hn], by simp [this]⟩
      · simp only [alloc, hn, Function.update_of_ne e]
        simp only [e, if_false, add_zero] at hb ⊢
        exact i.alive b hb
    · exact i.nodup
    · intro b
      simp only [alloc, i.rel, hcr, own_alloc]
      by_cases e : b = created h
      · subst e
        have := i.fresh (created h) (by omega)
        simp [this]
      · simp [e]; omega
    · simp [alloc, i.allocated, hcr]
    · exact i.freed
    · intro x
      have hs := i.stmts x
      rw [hcr, Finset.sum_range_succ, given_append]
      have e1 : ∀ b, (stmtsAt (alloc ss s) b).count x
          = if b = created h then ss.count x else (stmtsAt s b).count x := by
        intro b
        rw [stmtsAt_update s s.next (some ⟨1, ss⟩) x _ rfl, hn]
      have e2 : ∑ b ∈ Finset.range (created h), (stmtsAt (alloc ss s) b).count x
          = ∑ b ∈ Finset.range (created h), (stmtsAt s b).count x := by
        apply Finset.sum_congr rfl
        intro b hb
        rw [e1, if_neg (by have := Finset.mem_range.1 hb; omega)]
      rw [e2, e1, if_pos rfl]
      simp only [given, List.append_nil, List.count_append]
      simp only [alloc]
      omega
  | copy a =>
    simp only [legal] at hl
    obtain ⟨o, h1, h2⟩ := i.alive a hl
    have hcr := created_eq h (.copy a) rfl
    have hlt : a < created h := by
      by_contra hh
      have := i.fresh a (by omega)
      omega
    have hstep : step k (.copy a) s = some
        { s with heap := Function.update s.heap a (some { o with refs := o.refs + 1 }) } := by
      simp only [step, copy, h1]
    refine ⟨_, hstep, ⟨?_, ?_, ?_, ?_, ?_, ?_, ?_, ?_, ?_, ?_⟩, by simp [isAlloc]⟩
    · simpa [hcr] using i.next
    · intro b; rw [own_copy]; have := i.nonneg b; split_ifs <;> omega
    · intro b hb; rw [own_copy]; rw [hcr] at hb
      have := i.fresh b (by omega); rw [if_neg (by omega)]; omega
    · intro b hb; rw [own_copy] at hb
      have := i.nonneg b
      by_cases e : b = a
      · subst e; simp at hb; omega
      · simp only [Function.update_of_ne e]
        apply i.dead; simpa [e] using hb
    · intro b hb; rw [own_copy] at hb ⊢
      by_cases e : b = a
      · subst e; simp [h2]
      · simp only [e, if_false, add_zero, Function.update_of_ne e] at hb ⊢
        exact i.alive b hb
    · exact i.nodup
    · intro b
      simp only [i.rel, hcr, own_copy]
      by_cases e : b = a
      · subst e; simp; omega
      · simp [e]
    · simpa [hcr] using i.allocated
    · exact i.freed
    · intro x
      have hs := i.stmts x
      rw [hcr, given_append]
      simp only [given, List.append_nil]
      rw [← hs]
      congr 1
      apply Finset.sum_congr rfl
      intro b _
      rw [stmtsAt_update s a _ x _ rfl]
      split_ifs with e
      · subst e; simp [stmtsAt, h1]
      · rfl
  | free a =>
    simp only [legal] at hl
    obtain ⟨s', h1, h2, h3⟩ := inv_free (k := k) (h' := h ++ [.free a]) i hl
      (created_eq h (.free a) rfl) (own_free h a) (by simp [given_append, given])
    exact ⟨s', h1, h2, by simp [isAlloc, h3]⟩
  | merge a b =>
    obtain ⟨hab, hla, hlb⟩ := hl
    obtain ⟨o, h1, h2⟩ := i.alive a hla
    obtain ⟨q, g1, g2⟩ := i.alive b hlb
    have hlt : a < created h := by
      by_contra hh
      have := i.fresh a (by omega)
      omega
    have hlt' : b < created h := by
      by_contra hh
      have := i.fresh b (by omega)
      omega
    simp only [step, merge, h1, g1, if_neg hab]
    have i1 : Inv h { s with
        heap := Function.update (Function.update s.heap a (some { o with stmts := o.stmts ++ q.stmts }))
          b (some { q with stmts := [] }) } := by
      refine ⟨i.next, i.nonneg, i.fresh, ?_, ?_, i.nodup, i.rel, i.allocated, i.freed, ?_⟩
      · intro c hc
        have e1 : c ≠ a := by rintro rfl; omega
        have e2 : c ≠ b := by rintro rfl; omega
        simp only [Function.update_of_ne e1, Function.update_of_ne e2]
        exact i.dead c hc
      · intro c hc
        by_cases e2 : c = b
        · subst e2; simp [g2]
        · by_cases e1 : c = a
          · subst e1; simp [Function.update_of_ne e2, h2]
          · simp only [Function.update_of_ne e1, Function.update_of_ne e2]
            exact i.alive c hc
      · intro x
        have hs := i.stmts x
        rw [← hs]
        congr 1
        have u1 := count_update (created h) (fun c => (stmtsAt s c).count x) a
          ((o.stmts ++ q.stmts).count x) hlt
        have u2 := count_update (created h)
          (fun c => if c = a then (o.stmts ++ q.stmts).count x else (stmtsAt s c).count x) b 0 hlt'
        have e1 : ∀ c, (stmtsAt { s with
            heap := Function.update (Function.update s.heap a
              (some { o with stmts := o.stmts ++ q.stmts })) b (some { q with stmts := [] }) } c).count x
            = if c = b then 0 else
              if c = a then (o.stmts ++ q.stmts).count x else (stmtsAt s c).count x := by
          intro c
          rw [stmtsAt_update
            { s with heap := Function.update s.heap a (some { o with stmts := o.stmts ++ q.stmts }) }
            b _ x _ rfl]
          rw [stmtsAt_update s a _ x _ rfl]
          simp
        simp only [e1]
        have sa : stmtsAt s a = o.stmts := by simp [stmtsAt, h1]
        have sb : stmtsAt s b = q.stmts := by simp [stmtsAt, g1]
        simp only [sa] at u1
        rw [if_neg (Ne.symm hab), sb] at u2
        rw [List.count_append] at *
        omega
    obtain ⟨s', f1, f2, f3⟩ := inv_free (k := .block) (h' := h ++ [.merge a b]) i1 hlb
      (created_eq h (.merge a b) rfl) (own_merge h a b) (by simp [given_append, given])
    exact ⟨s', f1, f2, by simp [isAlloc, f3]⟩

theorem inv_init : Inv [] init := by
  refine ⟨rfl, ?_, ?_, ?_, ?_, ?_, ?_, rfl, rfl, ?_⟩ <;> simp [init, own, created, given]

/-- The recorded maximum is the largest number of live objects so far. -/
def IsMax (h : List Call) (m : Int) : Prop :=
  (∃ pre, pre <+: h ∧ m = live pre) ∧ ∀ pre, pre <+: h → (live pre : Int) ≤ m

theorem run_inv (k : Kind) (h : List Call) (w : WellBehaved h) :
    ∃ s, run k h init = some s ∧ Inv h s ∧ IsMax h s.max := by
  induction h using List.reverseRecOn with
  | nil =>
    refine ⟨init, rfl, inv_init, ⟨[], List.prefix_refl _, by simp [init, live, created]⟩, ?_⟩
    intro pre hp
    rw [List.prefix_nil.1 hp]
    simp [init, live, created]
  | append_singleton h c ih =>
    obtain ⟨s, h1, h2, ⟨p0, hp0, e0⟩, h4⟩ := ih (wb_prefix w)
    obtain ⟨s', g1, g2, g3⟩ := inv_step (k := k) h2 (wb_last w)
    refine ⟨s', ?_, g2, ?_⟩
    · rw [run_append, h1]
      simp [run, g1]
    · have hlive := inv_live h2
      have hlive' := inv_live g2
      have hpre : ∀ pre, pre <+: h ++ [c] → pre <+: h ∨ pre = h ++ [c] := by
        intro pre hp
        rcases List.prefix_concat_iff.1 (by simpa using hp) with e | e
        · exact .inr (by simpa using e)
        · exact .inl e
      have hle : (live h : Int) ≤ s.max := h4 h (List.prefix_refl _)
      have hp0' : p0 <+: h ++ [c] := hp0.trans (List.prefix_append _ _)
      by_cases ha : isAlloc c = true
      · have hf : s'.allocated - s'.freed = s.allocated + 1 - s.freed := by
          cases c with
          | alloc ss =>
            simp only [step, Option.some.injEq] at g1
            subst g1
            rfl
          | _ => simp [isAlloc] at ha
        rw [if_pos ha] at g3
        by_cases hb : s.allocated + 1 - s.freed > s.max
        · rw [if_pos hb] at g3
          refine ⟨⟨h ++ [c], List.prefix_refl _, by omega⟩, ?_⟩
          intro pre hp
          rcases hpre pre hp with hq | rfl
          · have := h4 pre hq; omega
          · omega
        · rw [if_neg hb] at g3
          refine ⟨⟨p0, hp0', by omega⟩, ?_⟩
          intro pre hp
          rcases hpre pre hp with hq | rfl
          · have := h4 pre hq; omega
          · omega
      · rw [if_neg ha] at g3
        refine ⟨⟨p0, hp0', by omega⟩, ?_⟩
        have hmono : live (h ++ [c]) ≤ live h := by
          have hc : created (h ++ [c]) = created h := created_eq h c (by simpa using ha)
          unfold live
          rw [hc]
          apply List.countP_mono_left
          intro a _ hb
          simp only [decide_eq_true_eq] at hb ⊢
          have hw := wb_last w
          cases c with
          | alloc ss => simp [isAlloc] at ha
          | copy b =>
            simp only [legal] at hw
            rw [own_copy] at hb
            split_ifs at hb with e
            · subst e; exact hw
            · omega
          | free b => rw [own_free] at hb; split_ifs at hb <;> omega
          | merge b d => rw [own_merge] at hb; split_ifs at hb <;> omega
        intro pre hp
        rcases hpre pre hp with hq | rfl
        · have := h4 pre hq; omega
        · omega

/-! ## Theorems -/

/-- **C39.** A well-behaved history of calls never touches a released object.  After it, an object is
    in memory exactly when a handle on it is held; it was given to `free` exactly when no handle is
    left, and once only; the leak counters are the numbers of objects created and released, and the
    recorded maximum is the largest number of objects that were in memory at the same time. -/
theorem C39_release_once (k : Kind) (h : List Call) (w : WellBehaved h) :
    ∃ s, run k h init = some s ∧
      (∀ a, (s.heap a).isSome ↔ 0 < own h a) ∧
      (∀ a, s.released.count a = if a < created h ∧ own h a = 0 then 1 else 0) ∧
      s.allocated = created h ∧ s.allocated - s.freed = live h ∧ IsMax h s.max := by
  obtain ⟨s, h1, i, h3⟩ := run_inv k h w
  refine ⟨s, h1, ?_, ?_, i.allocated, inv_live i, h3⟩
  · intro a
    constructor
    · intro hs
      by_contra hn
      have := i.nonneg a
      rw [i.dead a (by omega)] at hs
      simp at hs
    · intro hp
      obtain ⟨o, ho, _⟩ := i.alive a hp
      simp [ho]
  · intro a
    rw [i.nodup.count]
    simp only [i.rel]

/-- **C39**, the moment of the release: an object is released by a call exactly when the call gives up
    the last handle. -/
theorem C39_release_when_last (k : Kind) (h : List Call) (c : Call) (w : WellBehaved (h ++ [c])) :
    ∃ s s', run k h init = some s ∧ step k c s = some s' ∧
      ∀ a, (a ∉ s.released ∧ a ∈ s'.released) ↔ gives a c = true ∧ own h a = 1 := by
  obtain ⟨s, h1, i, -⟩ := run_inv k h (wb_prefix w)
  obtain ⟨s', g1, i', -⟩ := inv_step (k := k) i (wb_last w)
  refine ⟨s, s', h1, g1, ?_⟩
  intro a
  rw [i.rel, i'.rel]
  have hn := i.nonneg a
  have hf := i.fresh a
  cases c with
  | alloc ss =>
    rw [own_alloc, show created (h ++ [.alloc ss]) = created h + 1 by simp [created, isAlloc]]
    simp only [gives]
    split_ifs <;> simp <;> omega
  | copy b =>
    rw [own_copy, created_eq _ _ rfl]
    simp only [gives]
    split_ifs <;> simp <;> omega
  | free b =>
    rw [own_free, created_eq _ _ rfl]
    simp only [gives, beq_iff_eq]
    split_ifs with e
    · simp only [e, true_and]; subst e; omega
    · simp only [e, false_and, iff_false]; omega
  | merge b d =>
    rw [own_merge, created_eq _ _ rfl]
    simp only [gives, beq_iff_eq]
    split_ifs with e
    · simp only [e, true_and]; subst e; omega
    · simp only [e, false_and, iff_false]; omega

/-- **C39**, statements: when no handle is left, every statement given to a block was freed exactly as
    often as it was given, however blocks were merged. -/
theorem C39_statements (k : Kind) (h : List Call) (w : WellBehaved h) (hz : ∀ a, own h a = 0) :
    ∃ s, run k h init = some s ∧ s.stmtsFreed.Perm (given h) ∧ s.allocated = s.freed := by
  obtain ⟨s, h1, i, -⟩ := run_inv k h w
  refine ⟨s, h1, ?_, ?_⟩
  · rw [List.perm_iff_count]
    intro x
    have hs := i.stmts x
    rw [Finset.sum_eq_zero] at hs
    · simpa using hs
    · intro a _
      simp [stmtsAt, i.dead a (hz a)]
  · have := inv_live i
    have h0 : live h = 0 := by
      unfold live
      rw [List.countP_eq_zero]
      intro a _
      simp [hz a]
    omega

/-- A history with two blocks, copies, a merge of a shared block and all frees. -/
def exHist : List Call :=
  [.alloc [10], .copy 0, .alloc [20, 21], .copy 1, .merge 0 1, .free 0, .free 1, .free 0]

theorem exHist_wb : WellBehaved exHist := by
  have key : ∀ n, n < exHist.length → ∀ c, exHist[n]? = some c → legal (exHist.take n) c := by
    intro n hn c hc
    have : n = 0 ∨ n = 1 ∨ n = 2 ∨ n = 3 ∨ n = 4 ∨ n = 5 ∨ n = 6 ∨ n = 7 := by
      simp [exHist] at hn; omega
    rcases this with rfl | rfl | rfl | rfl | rfl | rfl | rfl | rfl <;>
      · simp only [exHist, List.getElem?_cons_succ, List.getElem?_cons_zero, Option.some.injEq] at hc
        subst hc
        simp only [legal]
        try decide
  intro pre c post e
  have := key pre.length (by simp [e]) c (by simp [e])
  simpa [e] using this

example : (run .block exHist init).map (fun s => (s.allocated, s.freed, s.max, s.released, s.stmtsFreed))
    = some (2, 2, 2, [0, 1], [10, 20, 21]) := by decide

example : ∀ a, own exHist a = 0 := by
  intro a
  rcases a with _ | _ | a
  · decide
  · decide
  · have hc : created exHist = 2 := by decide
    rw [own, hc, if_neg (by omega)]
    simp [exHist, takes, gives]

/-- The hypothesis is needed: a second `free` of the only handle touches a released object. -/
example : (run .stride [.alloc [], .free 0, .free 0] init).isNone = true := by decide

/-! ## Loops -/

mutual
/-- The number of references to block `a` in a loop. -/
def blockRefs (a : Nat) : Tree → Nat
  | .mk b _ inner => (if b = some a then 1 else 0) + blockRefsL a inner
/-- The same for a list. -/
def blockRefsL (a : Nat) : List Tree → Nat
  | [] => 0
  | t :: ts => blockRefs a t + blockRefsL a ts
end

mutual
/-- The number of references to stride `a` in a loop. -/
def strideRefs (a : Nat) : Tree → Nat
  | .mk _ st inner => (if st = some a then 1 else 0) + strideRefsL a inner
/-- The same for a list. -/
def strideRefsL (a : Nat) : List Tree → Nat
  | [] => 0
  | t :: ts => strideRefs a t + strideRefsL a ts
end

theorem wb_append {h g : List Call} (wh : WellBehaved h)
    (wg : ∀ pre c post, g = pre ++ c :: post → legal (h ++ pre) c) : WellBehaved (h ++ g) := by
  intro pre c post e
  rw [List.append_eq_append_iff] at e
  rcases e with ⟨a', e1, e2⟩ | ⟨c', e1, e2⟩
  · rw [e1]; exact wg a' c post e2
  · rcases c' with _ | ⟨d, c'⟩
    · simp only [List.append_nil, List.nil_append] at e1 e2
      have := wg [] c post e2.symm
      simpa [e1] using this
    · simp only [List.cons_append, List.cons.injEq] at e2
      obtain ⟨rfl, e2⟩ := e2
      exact wh pre c c' e1

/-- A list of copies of held objects is well behaved. -/
theorem copies_wb (l : List Nat) (h : List Call) (w : WellBehaved h) (hl : ∀ a ∈ l, 0 < own h a) :
    WellBehaved (h ++ l.map .copy) ∧ ∀ a, own (h ++ l.map .copy) a = own h a + l.count a := by
  induction l generalizing h with
  | nil => simpa using w
  | cons b l ih =>
    have w1 : WellBehaved (h ++ [.copy b]) := by
      apply wb_append w
      intro pre c post e
      rcases pre with _ | ⟨_, pre⟩
      · simp only [List.nil_append, List.cons.injEq] at e
        obtain ⟨rfl, _⟩ := e
        simpa [legal] using hl b (by simp)
      · simp at e
    obtain ⟨i1, i2⟩ := ih (h ++ [.copy b]) w1 (by
      intro a ha
      rw [own_copy]
      have := hl a (by simp [ha])
      split_ifs <;> omega)
    refine ⟨by simpa using i1, ?_⟩
    intro a
    have := i2 a
    rw [own_copy] at this
    rw [List.map_cons, List.append_cons, this, List.count_cons]
    by_cases e : a = b
    · subst e; simp; omega
    · have e' : ¬ b = a := fun h => e h.symm
      simp [e, e']

/-- A list of frees is well behaved when enough handles are held. -/
theorem frees_wb (l : List Nat) (h : List Call) (w : WellBehaved h)
    (hl : ∀ a, (l.count a : Int) ≤ own h a) :
    WellBehaved (h ++ l.map .free) ∧ ∀ a, own (h ++ l.map .free) a = own h a - l.count a := by
  induction l generalizing h with
  | nil => simpa using w
  | cons b l ih =>
    have w1 : WellBehaved (h ++ [.free b]) := by
      apply wb_append w
      intro pre c post e
      rcases pre with _ | ⟨_, pre⟩
      · simp only [List.nil_append, List.cons.injEq] at e
        obtain ⟨rfl, _⟩ := e
        have := hl b
        simp only [List.count_cons_self, List.append_nil, legal] at this ⊢
        omega
      · simp at e
    obtain ⟨i1, i2⟩ := ih (h ++ [.free b]) w1 (by
      intro a
      rw [own_free]
      have := hl a
      rw [List.count_cons] at this
      by_cases e : a = b
      · subst e; simp at this ⊢; omega
      · have e' : ¬ b = a := fun h => e h.symm
        simp [e, e'] at this ⊢; omega)
    refine ⟨by simpa using i1, ?_⟩
    intro a
    have := i2 a
    rw [own_free] at this
    rw [List.map_cons, List.append_cons, this, List.count_cons]
    by_cases e : a = b
    · subst e; simp; omega
    · have e' : ¬ b = a := fun h => e h.symm
      simp [e, e']

mutual
/-- The blocks of a loop. -/
def blocksOf : Tree → List Nat
  | .mk b _ inner => b.toList ++ blocksOfL inner
/-- The blocks of a list. -/
def blocksOfL : List Tree → List Nat
  | [] => []
  | t :: ts => blocksOf t ++ blocksOfL ts
end

mutual
/-- The strides of a loop. -/
def stridesOf : Tree → List Nat
  | .mk _ st inner => stridesOfL inner ++ st.toList
/-- The strides of a list. -/
def stridesOfL : List Tree → List Nat
  | [] => []
  | t :: ts => stridesOf t ++ stridesOfL ts
end

mutual
theorem blocksOf_count (a : Nat) : ∀ t : Tree, (blocksOf t).count a = blockRefs a t
  | .mk b _ inner => by
    simp only [blocksOf, blockRefs, List.count_append, blocksOfL_count a inner]
    cases b <;> simp [List.count_cons]
theorem blocksOfL_count (a : Nat) : ∀ ts : List Tree, (blocksOfL ts).count a = blockRefsL a ts
  | [] => rfl
  | t :: ts => by
    simp only [blocksOfL, blockRefsL, List.count_append, blocksOf_count a t, blocksOfL_count a ts]
end

mutual
theorem stridesOf_count (a : Nat) : ∀ t : Tree, (stridesOf t).count a = strideRefs a t
  | .mk _ b inner => by
    simp only [stridesOf, strideRefs, List.count_append, stridesOfL_count a inner]
    cases b <;> simp [List.count_cons, Nat.add_comm]
theorem stridesOfL_count (a : Nat) : ∀ ts : List Tree, (stridesOfL ts).count a = strideRefsL a ts
  | [] => rfl
  | t :: ts => by
    simp only [stridesOfL, strideRefsL, List.count_append, stridesOf_count a t, stridesOfL_count a ts]
end

mutual
theorem copyBlocks_eq : ∀ t : Tree, copyBlocks t = (blocksOf t).map .copy
  | .mk b _ inner => by simp [copyBlocks, blocksOf, copyBlocksL_eq inner]
theorem copyBlocksL_eq : ∀ ts : List Tree, copyBlocksL ts = (blocksOfL ts).map .copy
  | [] => rfl
  | t :: ts => by simp [copyBlocksL, blocksOfL, copyBlocks_eq t, copyBlocksL_eq ts]
end

mutual
theorem freeBlocks_eq : ∀ t : Tree, freeBlocks t = (blocksOf t).map .free
  | .mk b _ inner => by simp [freeBlocks, blocksOf, freeBlocksL_eq inner]
theorem freeBlocksL_eq : ∀ ts : List Tree, freeBlocksL ts = (blocksOfL ts).map .free
  | [] => rfl
  | t :: ts => by simp [freeBlocksL, blocksOfL, freeBlocks_eq t, freeBlocksL_eq ts]
end

mutual
theorem freeStrides_eq : ∀ t : Tree, freeStrides t = (stridesOf t).map .free
  | .mk _ b inner => by simp [freeStrides, stridesOf, freeStridesL_eq inner]
theorem freeStridesL_eq : ∀ ts : List Tree, freeStridesL ts = (stridesOfL ts).map .free
  | [] => rfl
  | t :: ts => by simp [freeStridesL, stridesOfL, freeStrides_eq t, freeStridesL_eq ts]
end

mutual
theorem copyStrides_perm : ∀ t : Tree, ∃ l : List Nat, copyStrides t = l.map .copy ∧ l.Perm (stridesOf t)
  | .mk _ b inner => by
    obtain ⟨l, h1, h2⟩ := copyStridesL_perm inner
    exact ⟨b.toList ++ l, by simp [copyStrides, h1],
      (List.Perm.append_left _ h2).trans List.perm_append_comm⟩
theorem copyStridesL_perm : ∀ ts : List Tree, ∃ l : List Nat, copyStridesL ts = l.map .copy ∧
    l.Perm (stridesOfL ts)
  | [] => ⟨[], rfl, List.Perm.refl _⟩
  | t :: ts => by
    obtain ⟨l, h1, h2⟩ := copyStrides_perm t
    obtain ⟨m, h3, h4⟩ := copyStridesL_perm ts
    exact ⟨l ++ m, by simp [copyStridesL, h1, h3], h2.append h4⟩
end

/-- **C39**, loops: copying a list of loops takes one handle on a block or stride for each reference in
    the list; it touches no released object when the list's own references are handles that are held. -/
theorem C39_loop_copy (ts : List Tree) (hb hs : List Call) (wb : WellBehaved hb) (ws : WellBehaved hs)
    (ob : ∀ a, (blockRefsL a ts : Int) ≤ own hb a) (os : ∀ a, (strideRefsL a ts : Int) ≤ own hs a) :
    WellBehaved (hb ++ copyBlocksL ts) ∧ WellBehaved (hs ++ copyStridesL ts) ∧
      (∀ a, own (hb ++ copyBlocksL ts) a = own hb a + blockRefsL a ts) ∧
      (∀ a, own (hs ++ copyStridesL ts) a = own hs a + strideRefsL a ts) := by
  obtain ⟨l, e, p⟩ := copyStridesL_perm ts
  have h1 := copies_wb (blocksOfL ts) hb wb (by
    intro a ha
    have := ob a
    rw [← blocksOfL_count] at this
    have := List.count_pos_iff.2 ha
    omega)
  have h2 := copies_wb l hs ws (by
    intro a ha
    have := os a
    rw [← stridesOfL_count, ← p.count_eq] at this
    have := List.count_pos_iff.2 ha
    omega)
  rw [copyBlocksL_eq, e]
  refine ⟨h1.1, h2.1, ?_, ?_⟩
  · intro a; rw [h1.2, blocksOfL_count]
  · intro a; rw [h2.2, p.count_eq, stridesOfL_count]

/-- **C39**, loops: freeing a list of loops gives up one handle for each reference in it and touches no
    released object. -/
theorem C39_loop_free (ts : List Tree) (hb hs : List Call) (wb : WellBehaved hb) (ws : WellBehaved hs)
    (ob : ∀ a, (blockRefsL a ts : Int) ≤ own hb a) (os : ∀ a, (strideRefsL a ts : Int) ≤ own hs a) :
    WellBehaved (hb ++ freeBlocksL ts) ∧ WellBehaved (hs ++ freeStridesL ts) ∧
      (∀ a, own (hb ++ freeBlocksL ts) a = own hb a - blockRefsL a ts) ∧
      (∀ a, own (hs ++ freeStridesL ts) a = own hs a - strideRefsL a ts) := by
  have h1 := frees_wb (blocksOfL ts) hb wb (by intro a; rw [blocksOfL_count]; exact ob a)
  have h2 := frees_wb (stridesOfL ts) hs ws (by intro a; rw [stridesOfL_count]; exact os a)
  rw [freeBlocksL_eq, freeStridesL_eq]
  refine ⟨h1.1, h2.1, ?_, ?_⟩
  · intro a; rw [h1.2, blocksOfL_count]
  · intro a; rw [h2.2, stridesOfL_count]

/-- **C39**, loops, end to end: copy a list of loops, free the list, free the copy: every block and
    stride of the list whose only handles were the list's is released, once. -/
theorem C39_loop_roundtrip (ts : List Tree) (hb : List Call) (wb : WellBehaved hb)
    (ob : ∀ a, own hb a = blockRefsL a ts) :
    ∃ s, run .block (hb ++ copyBlocksL ts ++ freeBlocksL ts ++ freeBlocksL ts) init = some s ∧
      s.stmtsFreed.Perm (given hb) ∧ s.allocated = s.freed := by
  have c := copies_wb (blocksOfL ts) hb wb (by
    intro a ha
    rw [ob, ← blocksOfL_count]
    have := List.count_pos_iff.2 ha
    omega)
  have f1 := frees_wb (blocksOfL ts) _ c.1 (by
    intro a
    have := ob a
    rw [c.2, ob, blocksOfL_count]
    omega)
  have f2 := frees_wb (blocksOfL ts) _ f1.1 (by
    intro a
    rw [f1.2, c.2, ob, blocksOfL_count]
    omega)
  rw [copyBlocksL_eq, freeBlocksL_eq]
  obtain ⟨s, h1, h2, h3⟩ := C39_statements .block _ f2.1 (by
    intro a
    rw [f2.2, f1.2, c.2, ob, blocksOfL_count]
    omega)
  refine ⟨s, h1, ?_, h3⟩
  have gm : ∀ (l : List Nat) (f : Nat → Call), (∀ a, f a = .copy a ∨ f a = .free a) →
      given (l.map f) = [] := by
    intro l f hf
    induction l with
    | nil => rfl
    | cons b l ih => rcases hf b with e | e <;> simp [given, e, ih]
  rw [given_append, given_append, given_append, gm _ _ (fun a => .inl rfl),
    gm _ _ (fun a => .inr rfl)] at h2
  simpa using h2

/-- Two loops sharing a block. -/
def exTrees : List Tree := [.mk none (some 0) [.mk (some 0) none []], .mk (some 0) (some 0) []]

example : blockRefsL 0 exTrees = 2 ∧ own [.alloc [7], .copy 0] 0 = 2 := by decide
example : (run .block ([.alloc [7], .copy 0] ++ copyBlocksL exTrees ++ freeBlocksL exTrees
    ++ freeBlocksL exTrees) init).map (fun s => (s.released, s.stmtsFreed)) = some ([0], [7]) := by
  decide

end Verif.Props.RefCount
