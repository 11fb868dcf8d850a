import Verif.Model.BlockCount
import Verif.Props.LoopCount

/-!
# The references to blocks (C84)
-/

namespace Verif.Props.BlockCount
open Verif.Loop Verif.BlockCount Verif.Props.LastLevel Verif.Props.Separated
open Verif.Gen hiding generateC generateRestrictedC generateComponentsC

open Verif.Props.LoopCount (some_of_ite SortPerm loopOtl_inner Leaf Stmts Grouped grouped_depth
  grouped_last restrictAll_P restrictInner_P specialize_P
  step3b_P prepare_P backtrackLoop_block)

variable {D S C : Type} {o : DomOps D S C} [Which]

/-! ## Counting -/

/-- What there is more, or less, of the pointers to blocks. -/
def bal (c : Cost) : Int := c.net - c.drop + c.dup

omit [Which] in
@[simp] theorem bal_add (a b : Cost) : bal (a + b) = bal a + bal b := by
  change (a.net + b.net) - ((a.drop + b.drop : Nat) : Int) + ((a.dup + b.dup : Nat) : Int) = _
  unfold bal; push_cast; omega
omit [Which] in
@[simp] theorem bal_idle : bal idle = 0 := rfl
omit [Which] in
@[simp] theorem bal_alloc (n : Nat) : bal (alloc n) = n := by simp [bal, alloc]
omit [Which] in
@[simp] theorem bal_free (n : Nat) : bal (free n) = -n := by simp [bal, free]
omit [Which] in
@[simp] theorem bal_lose (n : Nat) : bal (lose n) = -n := by simp [bal, lose]
omit [Which] in
@[simp] theorem bal_share (n : Nat) : bal (share n) = n := by simp [bal, share]

@[simp] theorem hold_none : hold none = 0 := rfl
@[simp] theorem held_mk (d : D) (t : Bool) (s : Option S) (b : Option Block) (i : List (Loop D S)) :
    held (.mk d t s b i) = hold b + helds i := by rw [held]
theorem held_eq (l : Loop D S) : held l = hold l.block + helds l.inner := by cases l; rw [held]; rfl
@[simp] theorem helds_nil : helds ([] : List (Loop D S)) = 0 := by rw [helds]
@[simp] theorem helds_cons (l : Loop D S) (ls : List (Loop D S)) : helds (l :: ls) = held l + helds ls := by rw [helds]
@[simp] theorem held_setDom (l : Loop D S) (d : D) : held (l.setDom d) = held l := by rw [held_eq, held_eq l]; rfl
@[simp] theorem held_setInner (l : Loop D S) (i : List (Loop D S)) : held (l.setInner i) = hold l.block + helds i := by rw [held_eq]; rfl
@[simp] theorem tops_nil : tops ([] : List (Loop D S)) = 0 := rfl
@[simp] theorem tops_cons (l : Loop D S) (ls : List (Loop D S)) : tops (l :: ls) = hold l.block + tops ls := rfl

@[simp] theorem helds_append (a b : List (Loop D S)) : helds (a ++ b) = helds a + helds b := by
  induction a with
  | nil => simp
  | cons l a ih => simp [ih, Nat.add_assoc]

theorem helds_perm {a b : List (Loop D S)} (h : a.Perm b) : helds a = helds b := by
  induction h with
  | nil => rfl
  | cons x _ ih => simp [ih]
  | swap x y l => simp; omega
  | trans _ _ h1 h2 => exact h1.trans h2

theorem helds_inner (ls : List (Loop D S)) : helds ls = tops ls + helds (ls.flatMap Loop.inner) := by
  induction ls with
  | nil => simp
  | cons l ls ih => rw [helds_cons, ih, held_eq, List.flatMap_cons, helds_append, tops_cons]; omega

theorem helds_map {f : Loop D S → Loop D S} (hf : ∀ l, held (f l) = held l) (ls : List (Loop D S)) : helds (ls.map f) = helds ls := by
  induction ls with
  | nil => rfl
  | cons l ls ih => simp [hf, ih]

theorem total_append {α : Type} (f : α → Cost) (a b : List α) : bal (total f (a ++ b)) = bal (total f a) + bal (total f b) := by
  induction a with
  | nil => simp [total]
  | cons x a ih => simp [total, ih]; omega

/-- A partial function on each element. -/
theorem flatMapM_bal {f : Loop D S → Option (List (Loop D S))} {fC : Loop D S → Cost} : ∀ {ls r : List (Loop D S)},
    (∀ l ∈ ls, ∀ r, f l = some r → (helds r : Int) = held l + bal (fC l)) → flatMapM f ls = some r →
    (helds r : Int) = helds ls + bal (total fC ls)
  | [], r, _, h => by
    simp only [flatMapM] at h
    obtain rfl := Option.some.inj h
    simp [total]
  | l :: ls, r, hf, h => by
    simp only [flatMapM] at h
    split at h
    · simp at h
    · rename_i bs hb
      split at h
      · simp at h
      · rename_i cs hc
        obtain rfl := Option.some.inj h
        have h1 := hf l List.mem_cons_self bs hb
        have h2 := flatMapM_bal (fun l h => hf l (List.mem_cons_of_mem _ h)) hc
        simp only [helds_append, helds_cons, total, bal_add]
        push_cast
        omega

/-- The same for lists of lists. -/
theorem flatMapM_bal' {f : List (Loop D S) → Option (List (Loop D S))} {fC : List (Loop D S) → Cost} :
    ∀ {ls : List (List (Loop D S))} {r : List (Loop D S)},
    (∀ l ∈ ls, ∀ r, f l = some r → (helds r : Int) = helds l + bal (fC l)) → flatMapM f ls = some r →
    (helds r : Int) = helds ls.flatten + bal (total fC ls)
  | [], r, _, h => by
    simp only [flatMapM] at h
    obtain rfl := Option.some.inj h
    simp [total]
  | l :: ls, r, hf, h => by
    simp only [flatMapM] at h
    split at h
    · simp at h
    · rename_i bs hb
      split at h
      · simp at h
      · rename_i cs hc
        obtain rfl := Option.some.inj h
        have h1 := hf l List.mem_cons_self bs hb
        have h2 := flatMapM_bal' (fun l h => hf l (List.mem_cons_of_mem _ h)) hc
        simp only [helds_append, List.flatten_cons, total, bal_add]
        push_cast
        omega

theorem filterMap_bal {f : Loop D S → Option (Loop D S)} {fC : Loop D S → Cost} : ∀ (ls : List (Loop D S)),
    (∀ l ∈ ls, (helds (f l).toList : Int) = held l + bal (fC l)) →
    (helds (ls.filterMap f) : Int) = helds ls + bal (total fC ls)
  | [], _ => by simp [total]
  | l :: ls, hf => by
    have h1 := hf l List.mem_cons_self
    have h2 := filterMap_bal ls (fun l h => hf l (List.mem_cons_of_mem _ h))
    rw [List.filterMap_cons]
    cases hl : f l with
    | none =>
      rw [hl] at h1
      simp only [total, bal_add, helds_cons, Option.toList_none, helds_nil] at h1 ⊢
      push_cast
      omega
    | some m =>
      rw [hl] at h1
      simp only [total, bal_add, helds_cons, Option.toList_some, helds_nil] at h1 ⊢
      push_cast at h1 ⊢
      omega

/-! ## The functions -/

theorem splitRest_bal {rec_ : Loop D S → Option (List (Loop D S))} {recC : Loop D S → Cost}
    (hr : ∀ l r, rec_ l = some r → (helds r : Int) = held l + bal (recC l)) (b : Option Block) (inner : List (Loop D S)) :
    ∀ (fuel : Nat) (rest seen : D) (r : List (Loop D S)), splitRest o rec_ b inner fuel rest seen = some r →
      (helds r : Int) = bal (splitRestC o recC b inner fuel rest seen)
  | 0, _, _, _, h => by simp [splitRest] at h
  | fuel + 1, rest, seen, r, h => by
    rw [splitRest] at h
    rw [splitRestC]
    split at h
    · rename_i h1
      obtain rfl := Option.some.inj h
      rw [if_pos h1]; simp
    · rename_i h1
      rw [if_neg h1]
      split at h
      · rename_i h2
        rw [if_pos h2]
        exact splitRest_bal hr b inner fuel _ _ _ h
      · rename_i h2
        rw [if_neg h2]
        split at h
        · simp at h
        · rename_i pieces hp
          have h3 : (helds pieces : Int) = helds inner + hold b +
              bal (if o.isConvex (o.diff (o.cutFirst rest).1 seen) then idle
                else recC (Loop.mk (o.diff (o.cutFirst rest).1 seen) false none b inner)) := by
            split at hp
            · rename_i h4
              obtain rfl := Option.some.inj hp
              rw [if_pos h4]; simp; omega
            · rename_i h4
              rw [if_neg h4]
              have := hr _ _ hp
              simp at this; omega
          simp only [bal_add, bal_alloc]
          split at h
          · rename_i h5
            obtain rfl := Option.some.inj h
            rw [if_pos h5]; simp; omega
          · rename_i h5
            rw [if_neg h5]
            split at h
            · simp at h
            · rename_i more hm
              obtain rfl := Option.some.inj h
              have := splitRest_bal hr b inner fuel _ _ _ hm
              rw [helds_append]; push_cast; omega

theorem addDisjoint_bal : ∀ (fuel : Nat) (l : Loop D S) (r : List (Loop D S)), addDisjoint o fuel l = some r →
    (helds r : Int) = held l + bal (addDisjointC o fuel l)
  | 0, _, _, h => by simp [addDisjoint] at h
  | fuel + 1, l, r, h => by
    rw [addDisjoint] at h
    rw [addDisjointC]
    split at h
    · rename_i h1
      obtain rfl := Option.some.inj h
      rw [if_pos h1]; simp
    · rename_i h1
      rw [if_neg h1]
      split at h
      · simp at h
      · rename_i more hm
        obtain rfl := Option.some.inj h
        have := splitRest_bal (fun l r h => addDisjoint_bal fuel l r h) _ _ _ _ _ _ hm
        have := held_eq l
        simp; omega

theorem disjoint_bal {fuel : Nat} {ls r : List (Loop D S)} (h : disjoint o fuel ls = some r) :
    (helds r : Int) = helds ls + bal (disjointC o fuel ls) :=
  flatMapM_bal (fun l _ r h => addDisjoint_bal fuel l r h) h

theorem restrict_held {l p : Loop D S} {ctx : D} (h : restrict o l ctx = some p) : held p = held l := by
  unfold restrict at h
  obtain rfl := some_of_ite h
  rw [held_mk, held_eq l]

theorem restrictAll_bal (ls : List (Loop D S)) (ctx : D) :
    (helds (restrictAll o ls ctx) : Int) = helds ls + bal (restrictAllC o ls ctx) := by
  refine filterMap_bal ls fun l _ => ?_
  cases h : restrict o l ctx with
  | none => simp
  | some p =>
    have := restrict_held h
    simp; omega

theorem restrictInner_bal (ls : List (Loop D S)) :
    (helds (restrictInner o ls) : Int) = helds ls + bal (restrictInnerC o ls) := by
  refine filterMap_bal ls fun l _ => ?_
  have h := restrictAll_bal (o := o) l.inner l.dom
  have hs := held_eq l
  by_cases he : (restrictAll o l.inner l.dom).isEmpty = true
  · rw [if_pos he, if_pos he]
    rw [List.isEmpty_iff] at he
    rw [he] at h
    simp at h ⊢; omega
  · rw [if_neg he, if_neg he]
    simp; omega

theorem projectAll_held (ls : List (Loop D S)) (level : Nat) : helds (projectAll o ls level) = helds ls :=
  helds_map (fun l => by unfold project; simp) ls

theorem combineFrom_bal : ∀ (ls : List (Loop D S)) (a : Loop D S),
    (helds (combineFrom o a ls) : Int) = held a + helds ls + bal (combineFromC o a ls)
  | [], a => by simp [combineFrom, combineFromC]
  | b :: ls, a => by
    rw [combineFrom, combineFromC]
    split
    · rename_i h
      rw [combineFrom_bal ls]
      have := held_eq a
      have := held_eq b
      simp; omega
    · have := combineFrom_bal ls b
      simp; omega

theorem combine_bal (ls : List (Loop D S)) : (helds (combine o ls) : Int) = helds ls + bal (combineC o ls) := by
  cases ls with
  | nil => simp [combine, combineC]
  | cons a ls => rw [combine, combineC, combineFrom_bal]; simp

theorem removeEmpty_bal (ls : List (Loop D S)) : (helds (removeEmpty o ls) : Int) = helds ls + bal (removeEmptyC o ls) := by
  unfold removeEmpty removeEmptyC
  induction ls with
  | nil => simp [total]
  | cons l ls ih =>
    rw [List.filter_cons]
    by_cases h : o.isEmpty l.dom = true
    · simp [h, total]; omega
    · simp [h, total]; omega

theorem sepInter_held {q l p : Loop D S} (h : sepInter o q l = some p) : held p = helds q.inner + helds l.inner := by
  unfold sepInter at h
  split at h
  · simp at h
  · obtain rfl := some_of_ite h
    simp

theorem sepDiff_held {q l p : Loop D S} (h : sepDiff o q l = some p) : held p = helds q.inner := by
  unfold sepDiff at h
  obtain rfl := some_of_ite h
  simp

theorem sepRest_held {uq : D} {l p : Loop D S} (h : sepRest o uq l = some p) : held p = helds l.inner := by
  unfold sepRest at h
  obtain rfl := some_of_ite h
  simp

theorem sepPieces_bal (fuel : Nat) (uq : D) (l : Loop D S) (res : List (Loop D S)) :
    (helds (sepPieces o res uq l) : Int) + bal (total (addDisjointC o fuel) (sepPieces o res uq l)) =
      helds res + helds l.inner + bal (sepStepC o fuel res uq l) := by
  have hrest : (helds (sepRest o uq l).toList : Int) + bal (total (addDisjointC o fuel) (sepRest o uq l).toList) =
      helds l.inner + bal (sepRestC o fuel uq l) := by
    unfold sepRestC
    cases h : sepRest o uq l with
    | none => simp [total]
    | some p => have := sepRest_held h; simp [total]; omega
  have hq : ∀ res : List (Loop D S), (helds (res.flatMap (fun q => (sepInter o q l).toList ++ (sepDiff o q l).toList)) : Int) +
      bal (total (addDisjointC o fuel) (res.flatMap (fun q => (sepInter o q l).toList ++ (sepDiff o q l).toList))) =
      helds res - tops res + bal (total (fun q => sepInterC o fuel q l + sepDiffC o fuel q l) res) := by
    intro res
    induction res with
    | nil => simp [total]
    | cons q res ih =>
      have h1 : (helds (sepInter o q l).toList : Int) + bal (total (addDisjointC o fuel) (sepInter o q l).toList) =
          bal (sepInterC o fuel q l) := by
        unfold sepInterC
        cases h : sepInter o q l with
        | none => simp [total]
        | some p => have := sepInter_held h; simp [total]; omega
      have h2 : (helds (sepDiff o q l).toList : Int) + bal (total (addDisjointC o fuel) (sepDiff o q l).toList) =
          helds q.inner + bal (sepDiffC o fuel q l) := by
        unfold sepDiffC
        cases h : sepDiff o q l with
        | none => simp [total]
        | some p => have := sepDiff_held h; simp [total]; omega
      have := held_eq q
      rw [List.flatMap_cons, total_append, total_append, helds_append, helds_append, total, bal_add, bal_add, helds_cons,
        tops_cons]
      push_cast
      omega
  unfold sepPieces sepStepC
  rw [total_append, helds_append, bal_add, bal_add, bal_lose]
  have := hq res
  push_cast
  omega

theorem sepLoop_bal (fuel : Nat) : ∀ (ls res : List (Loop D S)) (uq : D) (r : List (Loop D S)), sepLoop o fuel ls res uq = some r →
    (helds r : Int) = helds res + (helds ls - tops ls) + bal (sepLoopC o fuel ls res uq)
  | [], res, uq, r, h => by
    rw [sepLoop] at h
    obtain rfl := Option.some.inj h
    simp [sepLoopC]
  | l :: ls, res, uq, r, h => by
    rw [sepLoop] at h
    rw [sepLoopC]
    split at h
    · simp at h
    · rename_i res' hr
      rw [hr]
      dsimp only
      have h1 := sepLoop_bal fuel ls _ _ _ h
      have h2 := flatMapM_bal (fC := addDisjointC o fuel) (fun l _ r h => addDisjoint_bal fuel l r h) hr
      have h3 := sepPieces_bal (o := o) fuel uq l res
      have := held_eq l
      rw [bal_add, helds_cons, tops_cons]
      push_cast
      omega

theorem separate_bal {fuel : Nat} {ls r : List (Loop D S)} (h : separate o fuel ls = some r) :
    (helds r : Int) = helds ls + bal (separateC o fuel ls) := by
  have hc := combine_bal (o := o) ls
  unfold separate at h
  unfold separateC
  rw [bal_add]
  split at h
  · rename_i he
    obtain rfl := Option.some.inj h
    rw [he] at hc ⊢
    simp at hc ⊢; omega
  · rename_i l he
    rw [he] at hc ⊢
    have := disjoint_bal h
    dsimp only
    omega
  · rename_i l ls' hne he
    rw [he] at hc ⊢
    obtain ⟨m, ms, rfl⟩ : ∃ m ms, ls' = m :: ms := by
      cases ls' with
      | nil => exact absurd rfl hne
      | cons m ms => exact ⟨m, ms, rfl⟩
    have h1 := sepLoop_bal fuel _ _ _ _ h
    have h2 := held_eq l
    simp at h1 h2 hc ⊢
    omega

theorem mergeSplit_bal (opt : Options) (temp : D) (inner : List (Loop D S)) : ∀ (fuel : Nat) (sp : D) (res r : List (Loop D S)),
    mergeSplit o opt temp inner fuel sp res = some r →
    (helds r : Int) = helds res + helds inner + bal (mergeSplitC o opt temp inner fuel sp)
  | 0, _, _, _, h => by simp [mergeSplit] at h
  | fuel + 1, sp, res, r, h => by
    rw [mergeSplit] at h
    rw [mergeSplitC]
    split at h
    · rename_i h1
      rw [if_pos h1]
      dsimp only at h
      split at h
      · rename_i h2
        obtain rfl := Option.some.inj h
        rw [if_pos h2]; simp
      · rename_i h2
        obtain rfl := Option.some.inj h
        rw [if_neg h2]; simp; omega
    · rename_i h1
      rw [if_neg h1]
      dsimp only at h
      have := mergeSplit_bal opt temp inner fuel _ _ _ h
      rw [bal_add, this]
      split
      · simp
      · simp; omega

theorem merge_bal {fuel level : Nat} {opt : Options} {ls r : List (Loop D S)} (h : merge o fuel level opt ls = some r) :
    (helds r : Int) = helds ls + bal (mergeC o fuel level opt ls) := by
  cases ls with
  | nil =>
    rw [merge] at h
    obtain rfl := Option.some.inj h
    simp [mergeC]
  | cons l ls =>
    have hi := helds_inner (l :: ls)
    rw [merge] at h
    rw [mergeC]
    split at h
    · rename_i h1
      obtain rfl := Option.some.inj h
      rw [if_pos h1]
      have : ls = [] := by simpa using h1.1
      subst this
      simp
    · rename_i h1
      rw [if_neg h1]
      dsimp only at h ⊢
      rw [bal_add, bal_lose]
      split at h
      · rename_i h2
        rw [if_pos h2]
        have := mergeSplit_bal opt _ _ _ _ _ _ h
        rw [hi]; simp at this ⊢; omega
      · rename_i h2
        rw [if_neg h2]
        obtain rfl := Option.some.inj h
        rw [hi]; simp; omega

theorem sort_bal (K : SortPerm o) {L : Nat} {ls r : List (Loop D S)} (h : sort o L ls = some r) : helds r = helds ls := by
  unfold sort at h
  split at h
  · obtain rfl := Option.some.inj h; rfl
  · rename_i hL
    split at h
    · obtain rfl := Option.some.inj h; rfl
    · split at h
      · simp at h
      · rename_i perm hp
        obtain rfl := Option.some.inj h
        have h1 := K _ L perm (Nat.pos_of_ne_zero hL) hp
        rw [List.length_map] at h1
        have := h1.filterMap (fun i => ls[i]?)
        rw [Verif.Gen.filterMap_range] at this
        exact helds_perm this

theorem nestProjections_held (d : D) (level : Nat) : ∀ (n : Nat) (t : Loop D S), held (nestProjections o d level n t) = held t
  | 0, t => by simp [nestProjections]
  | n + 1, t => by rw [nestProjections, nestProjections_held d level n]; simp

theorem nest_bal {fuel : Nat} {ls r : List (Loop D S)} {ctx : D} {level : Nat} (h : nest o fuel ls ctx level = some r) :
    (helds r : Int) = helds ls + bal (nestC o fuel ls ctx) := by
  unfold nest at h
  unfold nestC
  split at h
  · simp at h
  · rename_i ds hd
    obtain rfl := Option.some.inj h
    rw [hd]
    dsimp only
    rw [bal_add]
    have h1 := disjoint_bal hd
    have h2 := filterMap_bal (f := nestOne o ctx level) (fC := nestOneC o ctx) ds (fun l _ => by
      unfold nestOne nestOneC
      cases hr : restrict o l ctx with
      | none => simp
      | some p =>
        have := restrict_held hr
        have := held_eq p
        simp [nestProjections_held]
        omega)
    omega

theorem constant_bal (ls : List (Loop D S)) : (helds (constant o ls) : Int) = helds ls + bal (constantC ls) := by
  cases ls with
  | nil => simp [constant, constantC]
  | cons l ls =>
    have hi := helds_inner (l :: ls)
    rw [constant, constantC, hi]
    simp; omega

theorem unrollOne_bal (level : Nat) (l : Loop D S) : (helds (unrollOne o level l) : Int) = held l + bal (unrollOneC o level l) := by
  unfold unrollOne unrollOneC
  cases o.canUnroll l.dom level with
  | none => simp
  | some nl =>
    obtain ⟨n, lb⟩ := nl
    dsimp only
    rw [bal_add, bal_free]
    generalize List.range n.toNat = is
    suffices h : ∀ is : List Nat, (helds (is.filterMap (fun i : Nat =>
        if (restrictAll o l.inner (o.fixedOffset l.dom level lb i)).isEmpty = true then none
        else some (Loop.mk (o.fixedOffset l.dom level lb i) true none none
          (restrictAll o l.inner (o.fixedOffset l.dom level lb i))))) : Int) =
        bal (total (fun i : Nat =>
          alloc (helds l.inner) + restrictAllC o l.inner (o.fixedOffset l.dom level lb i)) is) by
      rw [h is]; omega
    intro is
    induction is with
    | nil => simp [total]
    | cons i is ih =>
      have h := restrictAll_bal (o := o) l.inner (o.fixedOffset l.dom level lb i)
      rw [List.filterMap_cons, total, bal_add, bal_add, bal_alloc, ← ih]
      by_cases he : (restrictAll o l.inner (o.fixedOffset l.dom level lb i)).isEmpty = true
      · simp only [if_pos he]
        rw [List.isEmpty_iff] at he
        rw [he] at h
        simp at h ⊢; omega
      · simp only [if_neg he]
        simp; omega

theorem decomposeOne_bal {level scalar : Nat} {scaldims : List Nat} {l : Loop D S} {r : List (Loop D S)}
    (h : decomposeOne o level scalar scaldims l = some r) :
    (helds r : Int) = held l + bal (decomposeOneC o level scalar scaldims l) := by
  unfold decomposeOne at h
  unfold decomposeOneC
  split at h
  · rename_i h1
    obtain rfl := Option.some.inj h
    rw [if_pos h1]; simp
  · rename_i h1
    rw [if_neg h1]
    split at h
    · simp at h
    · rename_i cs hc
      obtain rfl := Option.some.inj h
      rw [hc]
      dsimp only
      have hp := Verif.Props.OneCopy.components_perm hc
      have hs := helds_perm hp
      have hl : 0 < cs.length := by
        cases cs with
        | nil => have := hp.length_eq; simp at this; omega
        | cons => simp
      have : ∀ cs : List (List (Loop D S)), helds (cs.map (fun c => Loop.mk l.dom l.otl l.stride l.block c)) =
          cs.length * hold l.block + helds cs.flatten := by
        intro cs
        induction cs with
        | nil => simp
        | cons c cs ih => simp [ih, Nat.add_mul]; omega
      rw [this, hs, held_eq l, bal_share]
      obtain ⟨m, hm⟩ : ∃ m, cs.length = m + 1 := ⟨cs.length - 1, by omega⟩
      rw [hm, Nat.add_mul, Nat.add_sub_cancel]
      push_cast
      omega

theorem specializeOne_held (l : Loop D S) : held (specializeOne o l) = held l := by
  unfold specializeOne
  split
  · split <;> simp
  · rfl

theorem specialize_bal {level scalar : Nat} {scaldims : List Nat} {ls r : List (Loop D S)}
    (h : specialize o level scalar scaldims ls = some r) : (helds r : Int) = helds ls + bal (specializeC o level scalar scaldims ls) := by
  unfold specialize at h
  unfold specializeC
  split at h
  · simp at h
  · rename_i ds hd
    obtain rfl := Option.some.inj h
    rw [hd]
    dsimp only
    have h1 := flatMapM_bal (fC := decomposeOneC o level scalar scaldims) (fun l _ r h => decomposeOne_bal h) hd
    have h2 := removeEmpty_bal (o := o) (ds.map (specializeOne o))
    have h3 := helds_map (specializeOne_held (o := o)) ds
    rw [bal_add, h2, h3, h1]
    omega

theorem propagate_held (ls : List (Loop D S)) : helds (propagate o ls) = helds ls := by
  refine helds_map (fun l => ?_) ls
  unfold propagateOne
  split
  · split <;> simp
  · rfl

theorem backtrackOnes_bal (level : Nat) (d : D) (is : List (Loop D S)) :
    (helds (is.map (backtrackOne o level d)) : Int) = helds is + bal (total backtrackOneC is) := by
  induction is with
  | nil => simp [total]
  | cons i is ih =>
    have h : (held (backtrackOne o level d i) : Int) = held i + bal (backtrackOneC i) := by
      have := held_eq i
      unfold backtrackOne backtrackOneC
      cases hb : i.block with
      | none => simp [project, hb] at this ⊢
      | some b => simp [hb] at this ⊢; omega
    rw [List.map_cons, helds_cons, helds_cons, total, bal_add]
    push_cast
    omega

theorem backtrackLoop_bal (K : SortPerm o) {fuel level : Nat} {l : Loop D S} {r : List (Loop D S)}
    (h : backtrackLoop o fuel level l = some r) : (helds r : Int) = held l + bal (backtrackLoopC o fuel level l) := by
  have h0 := held_eq l
  unfold backtrackLoop at h
  unfold backtrackLoopC
  split at h
  · rename_i h1
    obtain rfl := Option.some.inj h
    rw [if_pos h1]
    rw [List.isEmpty_iff] at h1
    rw [h1] at h0 ⊢
    simp [total] at h0 ⊢; omega
  · rename_i h1
    rw [if_neg h1]
    split at h
    · simp at h
    · rename_i s hs
      have h2 := separate_bal hs
      have h3 := sort_bal K h
      have h4 := backtrackOnes_bal (o := o) level l.dom l.inner
      rw [bal_add, bal_add, bal_lose]
      omega

/-- What is assumed of the recursive call. -/
def Bal (gen : List (Loop D S) → D → Nat → Nat → Option (List (Loop D S))) (genC : List (Loop D S) → D → Nat → Nat → Cost) : Prop :=
  ∀ g d L s r, gen g d L s = some r → (helds r : Int) = helds g + bal (genC g d L s)

theorem recurseInner_bal {gen : List (Loop D S) → Option (List (Loop D S))} {genC : List (Loop D S) → Cost}
    (hg : ∀ g r, gen g = some r → (helds r : Int) = helds g + bal (genC g)) (L s nb : Nat) :
    ∀ (n : Nat) (ls r : List (Loop D S)), recurseInner o gen L s nb n ls = some r →
      (helds r : Int) = helds ls + bal (recurseInnerC o genC L s nb n ls)
  | 0, [], r, h => by
    rw [recurseInner] at h; obtain rfl := Option.some.inj h; simp [recurseInnerC]
  | n + 1, [], r, h => by
    rw [recurseInner] at h; obtain rfl := Option.some.inj h; simp [recurseInnerC]
  | 0, _ :: _, r, h => by simp [recurseInner] at h
  | n + 1, l :: ls, r, h => by
    rw [recurseInner] at h
    rw [recurseInnerC]
    split at h
    · rename_i h1
      rw [if_pos h1]
      split at h
      · simp at h
      · rename_i q hq
        split at h
        · simp at h
        · rename_i rs hrs
          obtain rfl := Option.some.inj h
          have h2 := hg _ _ hq
          have h3 := recurseInner_bal hg L s nb n _ _ hrs
          have h4 : helds (l :: ls) = helds (spanMore o L s nb (l :: ls)).1 + helds (spanMore o L s nb (l :: ls)).2 := by
            rw [← helds_append]
            unfold spanMore
            rw [List.span_eq_takeWhile_dropWhile, List.takeWhile_append_dropWhile]
          rw [h4, helds_append, bal_add]
          push_cast
          omega
    · rename_i h1
      rw [if_neg h1]
      split at h
      · simp at h
      · rename_i rs hrs
        obtain rfl := Option.some.inj h
        have := recurseInner_bal hg L s nb n _ _ hrs
        simp; omega

theorem loopOtl_held (level : Nat) (l : Loop D S) : held (loopOtl o level l) = held l := by cases l; simp [loopOtl]

theorem loopStride_held (level : Nat) (l : Loop D S) : held (loopStride o level l) = held l := by
  cases l
  rw [loopStride]
  split
  · rfl
  · split
    · simp
    · split
      · rfl
      · simp

theorem recurseBelow_bal {c : Ctx} {gen : List (Loop D S) → D → Nat → Nat → Option (List (Loop D S))}
    {genC : List (Loop D S) → D → Nat → Nat → Cost} (hg : Bal gen genC) {L s : Nat} {l : Loop D S} {r : List (Loop D S)}
    (h : loopRecurseConst o c gen L s l = some r) : (helds r : Int) = held l + bal (recurseBelowC o c genC L s l) := by
  unfold loopRecurseConst recurseBelow at h
  unfold recurseBelowC
  dsimp only at h ⊢
  have h0 : held (if 0 < L ∧ c.opt.otl = true then loopOtl o L l else l) = held l := by
    split
    · exact loopOtl_held L l
    · rfl
  rw [← h0]
  generalize (if 0 < L ∧ c.opt.otl = true then loopOtl o L l else l) = m at h ⊢
  split at h
  · simp at h
  · rename_i into hi
    obtain rfl := Option.some.inj h
    have h1 := recurseInner_bal (fun g r h => hg g _ (L + 1) s r h) _ _ _ _ _ _ hi
    have h2 := held_eq m
    simp only [helds_cons, held_setInner, helds_nil, h2]
    push_cast
    rw [h1, add_zero, add_assoc]
    rfl

theorem loopRecurse_bal {c : Ctx} {gen : List (Loop D S) → D → Nat → Nat → Option (List (Loop D S))}
    {genC : List (Loop D S) → D → Nat → Nat → Cost} (hg : Bal gen genC) {k : Bool} {L s : Nat} {l : Loop D S} {r : List (Loop D S)}
    (h : loopRecurse o c gen k L s l = some r) : (helds r : Int) = held l + bal (loopRecurseC o c genC k L s l) := by
  have hp : ∀ q, recursePrepare o c k L s l = some q →
      ((match q with | .inl m => held m | .inr ms => helds ms : Nat) : Int) = held l + bal (recursePrepareC o c k L s l) := by
    intro q hq
    unfold recursePrepare at hq
    unfold recursePrepareC
    dsimp only at hq ⊢
    have h0 : held (if 0 < L ∧ c.opt.strides = true ∧ k = false then loopStride o L l else l) = held l := by
      split
      · exact loopStride_held L l
      · rfl
    rw [← h0]
    generalize (if 0 < L ∧ c.opt.strides = true ∧ k = false then loopStride o L l else l) = m at hq ⊢
    split at hq
    · rename_i h1
      rw [if_pos h1, ← unrollOne_bal]
      unfold unrolled at hq
      split at hq
      · simp at hq
      · rename_i m' hm
        obtain rfl := Option.some.inj hq
        simp [hm]
      · rename_i a b ms hm
        obtain rfl := Option.some.inj hq
        simp [hm]
    · rename_i h1
      obtain rfl := Option.some.inj hq
      rw [if_neg h1]; simp
  unfold loopRecurse at h
  unfold loopRecurseC
  split at h
  · simp at h
  · rename_i m hm
    rw [hm, bal_add]
    have := hp _ hm
    have := recurseBelow_bal hg h
    dsimp only at *
    omega
  · rename_i ms hm
    rw [hm, bal_add]
    have := hp _ hm
    have := flatMapM_bal (fC := recurseBelowC o c genC L s) (fun l _ r h => recurseBelow_bal hg h) h
    dsimp only at *
    omega

theorem nestBelow_bal {fuel L : Nat} {l : Loop D S} {r : List (Loop D S)} (h : nestBelow o fuel L l = some r) :
    (helds r : Int) = held l + bal (nestBelowC o fuel l) := by
  unfold nestBelow at h
  unfold nestBelowC
  split at h
  · simp at h
  · rename_i i hi
    obtain rfl := Option.some.inj h
    have := nest_bal hi
    have := held_eq l
    simp; omega

theorem general_bal (K : SortPerm o) {fuel : Nat} {c : Ctx} {gen : List (Loop D S) → D → Nat → Nat → Option (List (Loop D S))}
    {genC : List (Loop D S) → D → Nat → Nat → Cost} (hg : Bal gen genC) {L s : Nat} {ls r : List (Loop D S)}
    (h : generateGeneral o fuel c gen L s ls = some r) :
    (helds r : Int) = helds ls + bal (generateGeneralC o fuel c gen genC L s ls) := by
  unfold generateGeneral at h
  unfold generateGeneralC
  dsimp only at h ⊢
  generalize levels c.opt ls = fl at h ⊢
  split at h
  · simp at h
  · rename_i r3 sep cst h3
    rw [h3, bal_add]
    have g3 : (helds r3 : Int) = helds ls + bal (step3C o fuel c L s fl.1 ls) := by
      unfold step3 at h3
      unfold step3C
      split at h3
      · rename_i h1
        rw [if_pos h1]
        simp only [Option.some.injEq, Prod.mk.injEq] at h3
        obtain ⟨rfl, _⟩ := h3
        exact constant_bal ls
      · rename_i h1
        rw [if_neg h1]
        split at h3
        · rename_i h2
          rw [if_pos h2]
          rw [Option.map_eq_some_iff] at h3
          obtain ⟨q, hq, he⟩ := h3
          simp only [Prod.mk.injEq] at he
          obtain ⟨rfl, _⟩ := he
          exact merge_bal hq
        · rename_i h2
          rw [if_neg h2]
          rw [Option.map_eq_some_iff] at h3
          obtain ⟨q, hq, he⟩ := h3
          simp only [Prod.mk.injEq] at he
          obtain ⟨rfl, _⟩ := he
          exact separate_bal hq
    dsimp only
    split at h
    · simp at h
    · rename_i r3b h3b
      rw [h3b, bal_add]
      have g3b : (helds r3b : Int) = helds r3 + bal (step3bC o c L s sep r3) := by
        unfold step3b at h3b
        unfold step3bC
        split at h3b
        · simp at h3b
        · rename_i q hq
          rw [hq, bal_add]
          have h1 := sort_bal K hq
          have h2 := restrictInner_bal (o := o) q
          split at h3b
          · rename_i h4
            rw [if_pos h4]
            have := specialize_bal h3b
            omega
          · rename_i h4
            rw [if_neg h4]
            obtain rfl := Option.some.inj h3b
            simp; omega
      dsimp only
      split at h
      · simp at h
      · rename_i r4 h4
        rw [h4, bal_add]
        have g4 : (helds r4 : Int) = helds r3b + bal (step4C o fuel c genC L s fl.2 cst r3b) := by
          unfold step4 at h4
          unfold step4C
          split at h4
          · rename_i h1
            rw [if_pos h1]
            exact flatMapM_bal (fun l _ r h => loopRecurse_bal hg h) h4
          · rename_i h1
            rw [if_neg h1]
            exact flatMapM_bal (fun l _ r h => nestBelow_bal h) h4
        have g5 : (helds r : Int) = helds r4 + bal (step5C o fuel c L s fl.1 fl.2 r4) := by
          unfold step5 at h
          unfold step5C
          dsimp only at h ⊢
          have h0 : helds (if c.opt.strides = true then propagate o r4 else r4) = helds r4 := by
            split
            · exact propagate_held r4
            · rfl
          rw [← h0]
          generalize (if c.opt.strides = true then propagate o r4 else r4) = q at h ⊢
          split at h
          · rename_i h1
            rw [if_pos h1]
            exact flatMapM_bal (fun l _ r h => backtrackLoop_bal K h) h
          · rename_i h1
            rw [if_neg h1]
            obtain rfl := Option.some.inj h
            simp
        dsimp only
        omega

theorem components_bal (K : SortPerm o) {fuel : Nat} {c : Ctx} {gen : List (Loop D S) → D → Nat → Nat → Option (List (Loop D S))}
    {genC : List (Loop D S) → D → Nat → Nat → Cost} (hg : Bal gen genC) {L s : Nat} {ls r : List (Loop D S)}
    (h : generateComponents o fuel c gen L s ls = some r) :
    (helds r : Int) = helds ls + bal (generateComponentsC o fuel c gen genC L s ls) := by
  unfold generateComponents at h
  unfold generateComponentsC
  split at h
  · rename_i h1
    rw [if_pos h1]
    exact general_bal K hg h
  · rename_i h1
    rw [if_neg h1]
    split at h
    · simp at h
    · rename_i cs hc
      rw [hc]
      dsimp only
      rw [bal_add]
      split at h
      · simp at h
      · rename_i q hq
        rw [hq]
        obtain rfl := Option.some.inj h
        have h2 := flatMapM_bal' (fC := generateGeneralC o fuel c gen genC L s) (fun l _ r h => general_bal K hg h) hq
        have h3 := helds_perm (Verif.Props.OneCopy.components_perm hc)
        have h4 := combine_bal (o := o) q
        dsimp only
        omega

theorem scalarGroup_helds (c : Ctx) (L s sn : Nat) (l : Loop D S) (ls : List (Loop D S)) :
    helds ls = helds (scalarGroup o c L s sn l ls).1 + helds (scalarGroup o c L s sn l ls).2 := by
  rw [← helds_append]
  unfold scalarGroup
  rw [List.span_eq_takeWhile_dropWhile, List.takeWhile_append_dropWhile]

theorem scalarLoop_bal {c : Ctx} {gen : List (Loop D S) → Option (List (Loop D S))} {genC : List (Loop D S) → Cost}
    (hg : ∀ g r, gen g = some r → (helds r : Int) = helds g + bal (genC g)) (L s sn : Nat) :
    ∀ (n : Nat) (ls r : List (Loop D S)), scalarLoop o c gen L s sn n ls = some r →
      (helds r : Int) = helds ls + bal (scalarLoopC o c gen genC L s sn n ls)
  | 0, [], r, h => by rw [scalarLoop] at h; obtain rfl := Option.some.inj h; simp [scalarLoopC]
  | n + 1, [], r, h => by rw [scalarLoop] at h; obtain rfl := Option.some.inj h; simp [scalarLoopC]
  | 0, _ :: _, r, h => by simp [scalarLoop] at h
  | n + 1, l :: ls, r, h => by
    have h4 := scalarGroup_helds (o := o) c L s sn l ls
    rw [scalarLoop] at h
    rw [scalarLoopC, bal_add]
    split at h
    · rename_i h1
      rw [if_pos h1]
      split at h
      · simp at h
      · rename_i q hq
        split at h
        · simp at h
        · rename_i rs hrs
          obtain rfl := Option.some.inj h
          have h2 := hg _ _ hq
          have h3 := scalarLoop_bal hg L s sn n _ _ hrs
          rw [helds_append]
          rw [helds_cons] at h2 ⊢
          push_cast at *
          omega
    · rename_i h1
      rw [if_neg h1]
      split at h
      · simp at h
      · rename_i hrs
        obtain rfl := Option.some.inj h
        have h3 := scalarLoop_bal hg L s sn n _ _ hrs
        rw [hrs]
        simp at h3 ⊢; omega
      · rename_i q rs hrs
        obtain rfl := Option.some.inj h
        have h3 := scalarLoop_bal hg L s sn n _ _ hrs
        rw [hrs]
        simp at h3 ⊢; omega

theorem restricted_bal (K : SortPerm o) (c : Ctx) : ∀ (fuel : Nat) (b : Bool),
    Bal (generateRestricted o c fuel b) (generateRestrictedC o c fuel b)
  | 0, b => by intro g d L s r h; simp [generateRestricted] at h
  | fuel + 1, b => by
    intro g d L s r h
    rw [generateRestricted] at h
    rw [generateRestrictedC]
    split at h
    · rename_i h1
      rw [if_pos h1]
      obtain rfl := Option.some.inj h
      rw [show stop g d = g.map (fun l => l.setDom d) from rfl, helds_map (fun l => held_setDom l d)]
      simp
    · rename_i h1
      rw [if_neg h1]
      split at h
      · rename_i h2
        rw [if_pos h2]
        unfold generateScalar at h
        unfold generateScalarC
        dsimp only at h ⊢
        split at h
        · simp at h
        · rename_i q hq
          rw [hq]
          dsimp only
          have h3 := (Verif.Props.ScalarSort.bubble_spec _ _ _ _ hq).1
          rw [← helds_perm h3]
          exact scalarLoop_bal (fun g r h => restricted_bal K c fuel false g d L _ r h) _ _ _ _ _ _ h
      · rename_i h2
        rw [if_neg h2]
        have h3 := components_bal K (restricted_bal K c fuel true) h
        rw [h3, projectAll_held (o := o) g L]

theorem generate_bal (K : SortPerm o) {c : Ctx} {fuel : Nat} {ls t : List (Loop D S)} {ctx : D} {L s : Nat}
    (h : generate o c fuel ls ctx L s = some t) : (helds t : Int) = helds ls + bal (generateC o c fuel ls ctx L s) := by
  have h0 := restrictAll_bal (o := o) ls ctx
  unfold generate at h
  unfold generateC
  rw [bal_add]
  split at h
  · rename_i h1
    obtain rfl := Option.some.inj h
    rw [if_pos h1]
    rw [List.isEmpty_iff] at h1
    rw [h1] at h0
    simp at h0 ⊢; omega
  · rename_i h1
    rw [if_neg h1]
    have := restricted_bal K c fuel true _ _ _ _ _ h
    omega

theorem simplifyPrepare_bal {fuel : Nat} {ls r : List (Loop D S)} (h : simplifyPrepare o fuel ls = some r) :
    (helds r : Int) = helds ls + bal (simplifyPrepareC o fuel ls) := by
  unfold simplifyPrepare at h
  unfold simplifyPrepareC
  dsimp only at h ⊢
  have h0 : helds (ls.map (fun l => if o.isConvex l.dom = true then l else l.setDom (o.simplifyUnion l.dom))) = helds ls :=
    helds_map (fun l => by split <;> simp) ls
  rw [← h0]
  split at h
  · rename_i h1
    obtain rfl := Option.some.inj h
    rw [if_pos h1]; simp
  · rename_i h1
    rw [if_neg h1]
    exact disjoint_bal h

theorem simplify_bal : ∀ (fuel : Nat) (ls : List (Loop D S)) (ctx : D) (r : List (Loop D S)), simplify o fuel ls ctx = some r →
    (helds r : Int) = helds ls + bal (simplifyC o fuel ls ctx)
  | 0, _, _, _, h => by simp [simplify] at h
  | fuel + 1, ls, ctx, r, h => by
    rw [simplify] at h
    rw [simplifyC]
    split at h
    · simp at h
    · rename_i ds hd
      rw [hd]
      dsimp only
      have h1 := simplifyPrepare_bal hd
      have h2 : ∀ ds r : List (Loop D S), flatMapM (fun l => (loopSimplify o (simplify o fuel) l ctx).map Option.toList) ds = some r →
          (helds r : Int) = helds ds - tops ds + bal (total (fun l => loopSimplifyC o (simplify o fuel) (simplifyC o fuel) l ctx) ds) := by
        intro ds
        induction ds with
        | nil =>
          intro r h
          simp only [flatMapM] at h
          obtain rfl := Option.some.inj h
          simp [total]
        | cons l ds ih =>
          intro r h
          simp only [flatMapM] at h
          split at h
          · simp at h
          · rename_i bs hb
            split at h
            · simp at h
            · rename_i cs hc
              obtain rfl := Option.some.inj h
              have h3 := ih _ hc
              have h4 : (helds bs : Int) = helds l.inner + bal (loopSimplifyC o (simplify o fuel) (simplifyC o fuel) l ctx) := by
                rw [Option.map_eq_some_iff] at hb
                obtain ⟨q, hq, rfl⟩ := hb
                unfold loopSimplify at hq
                unfold loopSimplifyC
                dsimp only at hq ⊢
                split at hq
                · rename_i h5
                  obtain rfl := Option.some.inj hq
                  rw [if_pos h5]; simp
                · rename_i h5
                  rw [if_neg h5]
                  split at hq
                  · simp at hq
                  · rename_i inner hi
                    have h6 := simplify_bal fuel _ _ _ hi
                    rw [hi, bal_add]
                    dsimp only
                    split at hq
                    · rename_i h7
                      rw [if_pos h7]
                      obtain rfl := Option.some.inj hq
                      obtain ⟨h8, _⟩ := h7
                      rw [List.isEmpty_iff] at h8
                      rw [h8] at h6
                      simp at h6 ⊢; omega
                    · rename_i h7
                      rw [if_neg h7]
                      obtain rfl := Option.some.inj hq
                      simp; omega
              have h5 := held_eq l
              rw [helds_append, helds_cons, total, bal_add, tops_cons]
              push_cast
              omega
      have h3 := h2 ds r h
      simp
      omega

/-! ## Pointers that are not accounted for -/

/-- The pointers that are not accounted for: those duplicated and, unless `w` is zero, those dropped. -/
def _root_.Verif.BlockCount.Cost.lost (c : Cost) (w : Nat) : Nat := w * c.drop + c.dup

variable {w : Nat}

omit [Which] in
@[simp] theorem lost_add (a b : Cost) : (a + b).lost w = a.lost w + b.lost w := by
  change w * (a.drop + b.drop) + (a.dup + b.dup) = (w * a.drop + a.dup) + (w * b.drop + b.dup)
  rw [Nat.mul_add]; omega
@[simp] theorem lost_idle : idle.lost w = 0 := rfl
@[simp] theorem lost_alloc (n : Nat) : (alloc n).lost w = 0 := rfl
@[simp] theorem lost_free (n : Nat) : (free n).lost w = 0 := rfl
@[simp] theorem lost_lose (n : Nat) : (lose n).lost w = w * n := rfl
@[simp] theorem lost_share (n : Nat) : (share n).lost w = n := by simp [share, Cost.lost]

theorem lost_total {α : Type} {f : α → Cost} (h : ∀ a, (f a).lost w = 0) (as : List α) : (total f as).lost w = 0 := by
  induction as with
  | nil => rfl
  | cons a as ih => rw [total, lost_add, h, ih]

theorem lost_ite {c : Prop} [Decidable c] {a b : Cost} (ha : a.lost w = 0) (hb : b.lost w = 0) :
    (if c then a else b).lost w = 0 := by split <;> assumption

theorem lost_splitRest {recC : Loop D S → Cost} (hr : ∀ l, (recC l).lost w = 0) (b : Option Block) (inner : List (Loop D S)) :
    ∀ (fuel : Nat) (rest seen : D), (splitRestC o recC b inner fuel rest seen).lost w = 0
  | 0, _, _ => rfl
  | fuel + 1, rest, seen => by
    rw [splitRestC]
    refine lost_ite rfl (lost_ite (lost_splitRest hr b inner fuel _ _) ?_)
    rw [lost_add, lost_add, lost_ite rfl (hr _), lost_ite rfl (lost_splitRest hr b inner fuel _ _)]
    rfl

theorem lost_addDisjoint : ∀ (fuel : Nat) (l : Loop D S), (addDisjointC o fuel l).lost w = 0
  | 0, _ => rfl
  | fuel + 1, l => by
    rw [addDisjointC]
    refine lost_ite rfl ?_
    rw [lost_splitRest (lost_addDisjoint fuel)]

theorem lost_disjoint (fuel : Nat) (ls : List (Loop D S)) : (disjointC o fuel ls).lost w = 0 :=
  lost_total (lost_addDisjoint fuel) ls

theorem lost_restrictAll (ls : List (Loop D S)) (ctx : D) : (restrictAllC o ls ctx).lost w = 0 :=
  lost_total (fun l => lost_ite rfl rfl) ls

theorem lost_restrictInner (ls : List (Loop D S)) : (restrictInnerC o ls).lost w = 0 :=
  lost_total (fun l => by rw [lost_add, lost_restrictAll, lost_ite rfl rfl]) ls

theorem tops_zero {ls : List (Loop D S)} (h : ∀ l ∈ ls, l.block = none) : tops ls = 0 := by
  induction ls with
  | nil => rfl
  | cons l ls ih => rw [tops_cons, h l List.mem_cons_self, ih (fun l hl => h l (List.mem_cons_of_mem _ hl))]; rfl

theorem lost_combineFrom : ∀ (ls : List (Loop D S)) (a : Loop D S), (∀ l ∈ ls, l.block = none) → (combineFromC o a ls).lost w = 0
  | [], _, _ => rfl
  | b :: ls, a, h => by
    have h' : ∀ l ∈ ls, l.block = none := fun l hl => h l (List.mem_cons_of_mem _ hl)
    rw [combineFromC]
    refine lost_ite ?_ (lost_combineFrom ls b h')
    rw [lost_add, lost_combineFrom ls _ h', h b List.mem_cons_self]
    rfl

theorem lost_combine {ls : List (Loop D S)} (h : ∀ l ∈ ls, l.block = none) : (combineC o ls).lost w = 0 := by
  cases ls with
  | nil => rfl
  | cons a ls => exact lost_combineFrom ls a (fun l hl => h l (List.mem_cons_of_mem _ hl))

theorem lost_sepStep (fuel : Nat) {res : List (Loop D S)} (h : ∀ l ∈ res, l.block = none) (uq : D) (l : Loop D S) :
    (sepStepC o fuel res uq l).lost w = 0 := by
  unfold sepStepC
  rw [lost_add, lost_add, lost_lose, tops_zero h, Nat.mul_zero, lost_total (fun q => ?_)]
  · unfold sepRestC
    split <;> simp [lost_addDisjoint]
  · unfold sepInterC sepDiffC
    rw [lost_add]
    split <;> split <;> simp [lost_addDisjoint]

theorem lost_sepLoop (fuel : Nat) : ∀ (ls res : List (Loop D S)) (uq : D), (∀ l ∈ ls, l.block = none) → (∀ l ∈ res, l.block = none) →
    (sepLoopC o fuel ls res uq).lost w = 0
  | [], _, _, _, _ => rfl
  | l :: ls, res, uq, h, hr => by
    rw [sepLoopC]
    split
    · rfl
    · rename_i res' hres
      have hres' : ∀ q ∈ res', q.block = none := by
        intro q hq
        obtain ⟨m, hm, bs, hbs, hqb⟩ := flatMapM_mem hres hq
        have hb := sepPieces_body (o := o) (P := fun _ => True) (res := res) (uq := uq) (l := l)
          (fun q hq => ⟨hr q hq, fun _ _ => trivial⟩) ⟨h l List.mem_cons_self, fun _ _ => trivial⟩ m hm
        exact (addDisjoint_body hb hbs q hqb).1
      rw [lost_add, lost_sepStep fuel hr, lost_sepLoop fuel ls _ _ (fun l hl => h l (List.mem_cons_of_mem _ hl)) hres']

theorem lost_separate (fuel : Nat) {ls : List (Loop D S)} (h : ∀ l ∈ ls, l.block = none) : (separateC o fuel ls).lost w = 0 := by
  have hc : ∀ l ∈ combine o ls, l.block = none := fun l hl =>
    (combine_body (o := o) (P := fun _ => True) (fun l hl => ⟨h l hl, fun _ _ => trivial⟩) l hl).1
  unfold separateC
  rw [lost_add, lost_combine h]
  split
  · rfl
  · rw [lost_disjoint]
  · rename_i l ls' _ he
    rw [he] at hc
    have h' : ∀ l ∈ ls', l.block = none := fun l hl => hc l (List.mem_cons_of_mem _ hl)
    rw [lost_add, lost_lose, tops_zero h', Nat.mul_zero, lost_sepLoop fuel _ _ _ h' ?_]
    intro q hq
    rw [List.mem_singleton] at hq
    rw [hq]
    exact hc l List.mem_cons_self

theorem lost_mergeSplit (opt : Options) (temp : D) (inner : List (Loop D S)) : ∀ (fuel : Nat) (sp : D),
    (mergeSplitC o opt temp inner fuel sp).lost w = 0
  | 0, _ => rfl
  | fuel + 1, sp => by
    rw [mergeSplitC]
    refine lost_ite (lost_ite rfl rfl) ?_
    rw [lost_add, lost_ite rfl rfl, lost_mergeSplit opt temp inner fuel]

theorem lost_merge (fuel level : Nat) (opt : Options) {ls : List (Loop D S)} (h : ∀ l ∈ ls, l.block = none) : (mergeC o fuel level opt ls).lost w = 0 := by
  cases ls with
  | nil => rfl
  | cons l ls =>
    rw [mergeC]
    refine lost_ite rfl ?_
    dsimp only
    rw [lost_add, lost_ite (lost_mergeSplit _ _ _ _ _) rfl, lost_lose, tops_zero h, Nat.mul_zero]

theorem lost_nest (fuel : Nat) (ls : List (Loop D S)) (ctx : D) : (nestC o fuel ls ctx).lost w = 0 := by
  unfold nestC
  rw [lost_add, lost_disjoint]
  split
  · rfl
  · rw [lost_total fun l => ?_]
    exact lost_ite rfl rfl

theorem lost_unrollOne (level : Nat) (l : Loop D S) : (unrollOneC o level l).lost w = 0 := by
  unfold unrollOneC
  cases o.canUnroll l.dom level with
  | none => rfl
  | some nl =>
    dsimp only
    rw [lost_add, lost_total fun i => ?_]
    · rfl
    · rw [lost_add, lost_restrictAll]
      rfl

theorem lost_total' {α : Type} {f : α → Cost} {as : List α} (h : ∀ a ∈ as, (f a).lost w = 0) : (total f as).lost w = 0 := by
  induction as with
  | nil => rfl
  | cons a as ih =>
    rw [total, lost_add, h a List.mem_cons_self, ih (fun a ha => h a (List.mem_cons_of_mem _ ha))]

theorem lost_specialize (level scalar : Nat) (scaldims : List Nat) {ls : List (Loop D S)} (h : ∀ l ∈ ls, l.block = none) :
    (specializeC o level scalar scaldims ls).lost w = 0 := by
  unfold specializeC
  rw [lost_add, lost_total' fun l hl => ?_]
  · split
    · rfl
    · unfold removeEmptyC
      rw [lost_total fun l => lost_ite rfl rfl]
  · unfold decomposeOneC
    refine lost_ite rfl ?_
    rw [h l hl]
    split
    · rfl
    · simp

section
variable {c : Ctx} {P : Loop D S → Prop}

/-- The recursive call accounts for all pointers, and its result has no inner loops in loops with blocks. -/
def Fine (w : Nat) (P : Loop D S → Prop) (gen : List (Loop D S) → Option (List (Loop D S))) (genC : List (Loop D S) → Cost) : Prop :=
  ∀ g, (∀ i ∈ g, P i) → (genC g).lost w = 0 ∧ ∀ r, gen g = some r → ∀ t ∈ r, Leaf t

theorem recurseInner_fine (H : Stmts o P) {gen : List (Loop D S) → Option (List (Loop D S))} {genC : List (Loop D S) → Cost}
    (hg : Fine w P gen genC) (L s nb : Nat) : ∀ (n : Nat) (ls : List (Loop D S)), (∀ i ∈ ls, P i) →
    (recurseInnerC o genC L s nb n ls).lost w = 0 ∧ ∀ r, recurseInner o gen L s nb n ls = some r → ∀ t ∈ r, Leaf t
  | 0, [], _ => ⟨rfl, fun r h => by rw [recurseInner] at h; obtain rfl := Option.some.inj h; simp⟩
  | n + 1, [], _ => ⟨rfl, fun r h => by rw [recurseInner] at h; obtain rfl := Option.some.inj h; simp⟩
  | 0, _ :: _, _ => ⟨rfl, fun r h => by simp [recurseInner] at h⟩
  | n + 1, l :: ls, hls => by
    have hsp : (spanMore o L s nb (l :: ls)).1 ++ (spanMore o L s nb (l :: ls)).2 = l :: ls := by
      simp [spanMore, List.span_eq_takeWhile_dropWhile]
    have g1 := hg _ (fun i hi => hls i (by rw [← hsp]; exact List.mem_append_left _ hi))
    have g2 := recurseInner_fine H hg L s nb n _ (fun i hi => hls i (by rw [← hsp]; exact List.mem_append_right _ hi))
    have g3 := recurseInner_fine H hg L s nb n ls (fun i hi => hls i (List.mem_cons_of_mem _ hi))
    rw [recurseInnerC, recurseInner]
    refine ⟨lost_ite (by rw [lost_add, g1.1, g2.1]) g3.1, fun r h => ?_⟩
    split at h
    · split at h
      · simp at h
      · rename_i q hq
        split at h
        · simp at h
        · rename_i rs hrs
          obtain rfl := Option.some.inj h
          intro t ht
          rcases List.mem_append.1 ht with ht | ht
          · exact g1.2 _ hq t ht
          · exact g2.2 _ hrs t ht
    · split at h
      · simp at h
      · rename_i rs hrs
        obtain rfl := Option.some.inj h
        intro t ht
        rcases List.mem_cons.1 ht with rfl | ht
        · exact fun _ => H.leaf _ (hls _ List.mem_cons_self)
        · exact g3.2 _ hrs t ht

theorem recurseBelow_fine (H : Stmts o P) {gen : List (Loop D S) → D → Nat → Nat → Option (List (Loop D S))}
    {genC : List (Loop D S) → D → Nat → Nat → Cost} {L s : Nat}
    (hg : ∀ d, Fine w P (fun g => gen g d (L + 1) s) (fun g => genC g d (L + 1) s)) {m : Loop D S} (hm : Body P m) :
    (recurseBelowC o c genC L s m).lost w = 0 ∧ ∀ r, loopRecurseConst o c gen L s m = some r → ∀ t ∈ r, Body Leaf t := by
  have hm' : Body P (if 0 < L ∧ c.opt.otl = true then loopOtl o L m else m) := by
    split
    · cases m; exact hm
    · exact hm
  unfold recurseBelowC loopRecurseConst recurseBelow
  dsimp only
  generalize (if 0 < L ∧ c.opt.otl = true then loopOtl o L m else m) = q at hm' ⊢
  have h1 := fun d => recurseInner_fine H (hg d) (L + 1) s c.scaldims.length q.inner.length q.inner hm'.2
  refine ⟨(h1 _).1, fun r h => ?_⟩
  split at h
  · simp at h
  · rename_i into hi
    obtain rfl := Option.some.inj h
    intro t ht
    rw [List.mem_singleton] at ht
    subst ht
    refine ⟨?_, ?_⟩
    · cases q; exact hm'.1
    · cases q; exact (h1 _).2 _ hi

theorem loopRecurse_fine (H : Stmts o P) {gen : List (Loop D S) → D → Nat → Nat → Option (List (Loop D S))}
    {genC : List (Loop D S) → D → Nat → Nat → Cost} {L s : Nat}
    (hg : ∀ d, Fine w P (fun g => gen g d (L + 1) s) (fun g => genC g d (L + 1) s)) {k : Bool} {l : Loop D S} (hl : Body P l) :
    (loopRecurseC o c genC k L s l).lost w = 0 ∧ ∀ r, loopRecurse o c gen k L s l = some r → ∀ t ∈ r, Body Leaf t := by
  have hp := fun b => prepare_P (c := c) (b := b) (k := k) (L := L) (s := s) H hl
  constructor
  · unfold loopRecurseC
    rw [lost_add]
    have : (recursePrepareC o c k L s l).lost w = 0 := lost_ite (lost_unrollOne _ _) rfl
    rw [this]
    split
    · rfl
    · rename_i m hm
      rw [(recurseBelow_fine H hg (hp _ hm)).1]
    · rename_i ms hm
      rw [lost_total' fun m h => (recurseBelow_fine H hg (hp _ hm m h)).1]
  · intro r h
    unfold loopRecurse at h
    split at h
    · simp at h
    · rename_i m hm
      exact (recurseBelow_fine H hg (hp _ hm)).2 r h
    · rename_i ms hm
      intro t ht
      obtain ⟨m, hmm, bs, hbs, htb⟩ := flatMapM_mem h ht
      exact (recurseBelow_fine H hg (hp _ hm m hmm)).2 bs hbs t htb

theorem lost_backtrackLoop {fuel L : Nat} {l : Loop D S} (hl : Body Leaf l) : (backtrackLoopC o fuel L l).lost w = 0 := by
  unfold backtrackLoopC
  have hs : ∀ t ∈ l.inner.map (backtrackOne o L l.dom), t.block = none := by
    intro t ht
    obtain ⟨i, _, rfl⟩ := List.mem_map.1 ht
    unfold backtrackOne
    split <;> rfl
  rw [lost_add, lost_add, lost_ite rfl (lost_separate _ hs), lost_lose, hl.1, lost_total' fun i hi => ?_]
  · rfl
  · unfold backtrackOneC
    cases hb : i.block with
    | none => rfl
    | some b =>
      dsimp only
      rw [hl.2 i hi (by rw [hb]; simp)]
      rfl

theorem general_fine (H : Stmts o P) {fuel : Nat} {gen : List (Loop D S) → D → Nat → Nat → Option (List (Loop D S))}
    {genC : List (Loop D S) → D → Nat → Nat → Cost} {L s : Nat}
    (hg : ∀ d, Fine w P (fun g => gen g d (L + 1) s) (fun g => genC g d (L + 1) s)) {ls : List (Loop D S)} (hls : ∀ l ∈ ls, Body P l) :
    (generateGeneralC o fuel c gen genC L s ls).lost w = 0 ∧
    ∀ r, generateGeneral o fuel c gen L s ls = some r → ∀ t ∈ r, t.block = none := by
  have h3 : ∀ f ls, (∀ l ∈ ls, Body P l) → (step3C o fuel c L s f ls).lost w = 0 := by
    intro f ls hb
    have hb' : ∀ l ∈ ls, l.block = none := fun l hl => (hb l hl).1
    unfold step3C
    refine lost_ite ?_ (lost_ite (lost_merge _ _ _ hb') (lost_separate _ hb'))
    cases ls with
    | nil => rfl
    | cons l ls => rw [constantC, lost_lose, tops_zero hb', Nat.mul_zero]
  have h3b : ∀ sep ls, (∀ l ∈ ls, Body P l) → (step3bC o c L s sep ls).lost w = 0 := by
    intro sep ls hb
    unfold step3bC
    split
    · rfl
    · rename_i q hq
      rw [lost_add, lost_restrictInner, lost_ite (lost_specialize _ _ _ fun l hl => ?_) rfl]
      exact (restrictInner_P H (fun l hl => hb l (sort_mem hq l hl)) l hl).1
  have h4 : ∀ f k ls, (∀ l ∈ ls, Body P l) → (step4C o fuel c genC L s f k ls).lost w = 0 := by
    intro f k ls hl
    unfold step4C
    refine lost_ite (lost_total' fun l h => (loopRecurse_fine H hg (hl l h)).1) (lost_total' fun l h => ?_)
    unfold nestBelowC
    rw [lost_add, lost_nest, lost_lose, (hl l h).1]
    rfl
  have h4o : ∀ f k ls r, (∀ l ∈ ls, Body P l) → step4 o fuel c gen L s f k ls = some r →
      (∀ t ∈ r, t.block = none) ∧ ((L = 0 ∨ (L + s : Int) < f ∨ f < 0) → ∀ t ∈ r, Body Leaf t) := by
    intro f k ls r hl h
    unfold step4 at h
    split at h
    · have : ∀ t ∈ r, Body Leaf t := by
        intro t ht
        obtain ⟨m, hmm, bs, hbs, htb⟩ := flatMapM_mem h ht
        exact (loopRecurse_fine H hg (hl m hmm)).2 bs hbs t htb
      exact ⟨fun t ht => (this t ht).1, fun _ => this⟩
    · rename_i hn
      refine ⟨fun t ht => ?_, fun h => absurd h hn⟩
      obtain ⟨m, hmm, bs, hbs, htb⟩ := flatMapM_mem h ht
      unfold nestBelow at hbs
      split at hbs
      · simp at hbs
      · obtain rfl := Option.some.inj hbs
        rw [List.mem_singleton] at htb
        rw [htb]; rfl
  have hprop : ∀ r : List (Loop D S), ∀ t ∈ (if c.opt.strides = true then propagate o r else r),
      ∃ q ∈ r, t.block = q.block ∧ t.inner = q.inner := by
    intro r t ht
    split at ht
    · obtain ⟨q, hq, rfl⟩ := List.mem_map.1 ht
      refine ⟨q, hq, ?_⟩
      unfold propagateOne
      split
      · split
        · exact ⟨rfl, rfl⟩
        · exact ⟨rfl, rfl⟩
      · exact ⟨rfl, rfl⟩
    · exact ⟨t, ht, rfl, rfl⟩
  have h5 : ∀ f l ls, ((L = 0 ∨ (L + s : Int) < l ∨ l < 0) → ∀ t ∈ ls, Body Leaf t) → (step5C o fuel c L s f l ls).lost w = 0 := by
    intro f l ls hl
    unfold step5C
    dsimp only
    split
    · rename_i hc
      refine lost_total' fun t ht => lost_backtrackLoop ?_
      obtain ⟨q, hq, e1, e2⟩ := hprop ls t ht
      have := hl (Or.inr hc.2.2.1) q hq
      exact ⟨e1.trans this.1, by rw [e2]; exact this.2⟩
    · rfl
  have h5o : ∀ f l ls r, (∀ t ∈ ls, t.block = none) → step5 o fuel c L s f l ls = some r → ∀ t ∈ r, t.block = none := by
    intro f l ls r hl h
    unfold step5 at h
    dsimp only at h
    split at h
    · intro t ht
      obtain ⟨m, hmm, bs, hbs, htb⟩ := flatMapM_mem h ht
      exact backtrackLoop_block hbs t htb
    · obtain rfl := Option.some.inj h
      intro t ht
      obtain ⟨q, hq, e1, _⟩ := hprop ls t ht
      exact e1.trans (hl q hq)
  constructor
  · unfold generateGeneralC
    dsimp only
    rw [lost_add, h3 _ _ hls]
    split
    · rfl
    · rename_i r3 sep k e3
      have b3 := step3_body (P := P) hls e3
      rw [lost_add, h3b _ _ b3]
      split
      · rfl
      · rename_i r3b e3b
        have b3b := step3b_P H b3 e3b
        rw [lost_add, h4 _ _ _ b3b]
        split
        · rfl
        · rename_i r4 e4
          rw [h5 _ _ _ (h4o _ _ _ _ b3b e4).2]
  · intro r h
    unfold generateGeneral at h
    dsimp only at h
    split at h
    · simp at h
    · rename_i r3 sep k e3
      have b3 := step3_body (P := P) hls e3
      split at h
      · simp at h
      · rename_i r3b e3b
        have b3b := step3b_P H b3 e3b
        split at h
        · simp at h
        · rename_i r4 e4
          exact h5o _ _ _ _ (h4o _ _ _ _ b3b e4).1 h

theorem components_fine (H : Stmts o P) {fuel : Nat} {gen : List (Loop D S) → D → Nat → Nat → Option (List (Loop D S))}
    {genC : List (Loop D S) → D → Nat → Nat → Cost} {L s : Nat}
    (hg : ∀ d, Fine w P (fun g => gen g d (L + 1) s) (fun g => genC g d (L + 1) s)) {ls : List (Loop D S)} (hls : ∀ l ∈ ls, Body P l) :
    (generateComponentsC o fuel c gen genC L s ls).lost w = 0 ∧
    ∀ r, generateComponents o fuel c gen L s ls = some r → ∀ t ∈ r, t.block = none := by
  have h0 := general_fine (c := c) (fuel := fuel) H hg hls
  have hcs : ∀ cs, componentsOf (fun a b => innerFollows o a b L s c.scaldims) ls = some cs → ∀ k ∈ cs, ∀ l ∈ k, Body P l := by
    intro cs h k hk l hl
    exact hls l (((componentsOf_spec (α := Unit) h).1 k hk).subset hl)
  constructor
  · unfold generateComponentsC
    refine lost_ite h0.1 ?_
    split
    · rfl
    · rename_i cs hc
      rw [lost_add, lost_total' fun k hk => (general_fine (c := c) (fuel := fuel) H hg (hcs cs hc k hk)).1]
      split
      · rfl
      · rename_i q hq
        rw [lost_combine fun l hl => ?_]
        obtain ⟨k, hk, bs, hbs, htb⟩ := flatMapM_mem hq hl
        exact (general_fine H hg (hcs cs hc k hk)).2 bs hbs l htb
  · intro r h
    unfold generateComponents at h
    split at h
    · exact h0.2 r h
    · split at h
      · simp at h
      · rename_i cs hc
        split at h
        · simp at h
        · rename_i q hq
          obtain rfl := Option.some.inj h
          intro t ht
          refine (combine_body (o := o) (P := fun _ => True) (fun l hl => ?_) t ht).1
          obtain ⟨k, hk, bs, hbs, htb⟩ := flatMapM_mem hq hl
          exact ⟨(general_fine H hg (hcs cs hc k hk)).2 bs hbs l htb, fun _ _ => trivial⟩

theorem scalarLoop_fine (H : Stmts o P) {L s sn : Nat}
    (hs : w ≠ 0 → ∀ l m, P l → P m → more o l L sn c.scaldims.length = false → more o m L sn c.scaldims.length = false)
    {gen : List (Loop D S) → Option (List (Loop D S))} {genC : List (Loop D S) → Cost} (hg : Fine w P gen genC) :
    ∀ (n : Nat) (ls : List (Loop D S)), (∀ i ∈ ls, P i) →
    (scalarLoopC o c gen genC L s sn n ls).lost w = 0 ∧ ∀ r, scalarLoop o c gen L s sn n ls = some r → ∀ t ∈ r, Leaf t
  | 0, [], _ => ⟨rfl, fun r h => by rw [scalarLoop] at h; obtain rfl := Option.some.inj h; simp⟩
  | n + 1, [], _ => ⟨rfl, fun r h => by rw [scalarLoop] at h; obtain rfl := Option.some.inj h; simp⟩
  | 0, _ :: _, _ => ⟨rfl, fun r h => by simp [scalarLoop] at h⟩
  | n + 1, l :: ls, hls => by
    obtain ⟨g1, g2, _⟩ := Verif.Gen.span_group o c L s sn l ls
    have hA : ∀ i ∈ (scalarGroup o c L s sn l ls).1, P i := fun i hi =>
      hls i (List.mem_cons_of_mem _ (by rw [← g1]; exact List.mem_append_left _ hi))
    have hR : ∀ i ∈ (scalarGroup o c L s sn l ls).2, P i := fun i hi =>
      hls i (List.mem_cons_of_mem _ (by rw [← g1]; exact List.mem_append_right _ hi))
    have hl := hls l List.mem_cons_self
    have k1 := hg (l :: (scalarGroup o c L s sn l ls).1) (by
      intro i hi
      rcases List.mem_cons.1 hi with rfl | hi
      · exact hl
      · exact hA i hi)
    have k2 := scalarLoop_fine (s := s) H hs hg n _ hR
    have hE : w ≠ 0 → more o l L sn c.scaldims.length = false → (scalarGroup o c L s sn l ls).1 = [] := by
      intro hw hm
      rw [List.eq_nil_iff_forall_not_mem]
      intro m hmm
      have := hs hw l m hl (hA m hmm) hm
      rw [(g2 m hmm).1] at this
      exact absurd this (by simp)
    rw [scalarLoopC, scalarLoop]
    constructor
    · rw [lost_add, k2.1]
      split
      · rw [k1.1]
      · rename_i hm
        by_cases hw : w = 0
        · subst hw
          split <;> simp
        · rw [hE hw (by simpa using hm)]
          split <;> rfl
    · intro r h
      split at h
      · split at h
        · simp at h
        · rename_i q hq
          split at h
          · simp at h
          · rename_i rs hrs
            obtain rfl := Option.some.inj h
            intro t ht
            rcases List.mem_append.1 ht with ht | ht
            · exact k1.2 _ hq t ht
            · exact k2.2 _ hrs t ht
      · split at h
        · simp at h
        · obtain rfl := Option.some.inj h
          intro t ht
          rcases List.mem_cons.1 ht with rfl | ht
          · exact fun _ => H.leaf _ hl
          · exact fun _ => H.leaf _ (hA t ht)
        · rename_i q rs hrs
          obtain rfl := Option.some.inj h
          intro t ht
          rcases List.mem_cons.1 ht with rfl | ht
          · exact fun _ => H.leaf _ hl
          · exact k2.2 _ hrs t ht

theorem restricted_fine (H : Stmts o P) (G : w ≠ 0 → Grouped o c P) : ∀ (fuel : Nat) (b : Bool) (d : D) (L s : Nat),
    Fine w P (fun g => generateRestricted o c fuel b g d L s) (fun g => generateRestrictedC o c fuel b g d L s)
  | 0, b, d, L, s => by
    intro g _
    exact ⟨rfl, fun r h => by simp [generateRestricted] at h⟩
  | fuel + 1, b, d, L, s => by
    intro g hP
    dsimp only
    rw [generateRestrictedC, generateRestricted]
    by_cases h1 : b = true ∧ 0 ≤ c.opt.stop ∧ c.opt.stop + 1 ≤ L + s
    · rw [if_pos h1, if_pos h1]
      refine ⟨rfl, fun r h => ?_⟩
      obtain rfl := Option.some.inj h
      intro t ht
      obtain ⟨l, hl, rfl⟩ := List.mem_map.1 ht
      exact fun _ => H.leaf l (hP l hl)
    · rw [if_neg h1, if_neg h1]
      by_cases h2 : ScalarSort.levelIsConstant L s (isScal c.scaldims) = true
      · rw [if_pos h2, if_pos h2]
        unfold generateScalar generateScalarC
        dsimp only
        have hb := fun q => Verif.Props.ScalarSort.bubble_spec (fun a b : Loop D S =>
          ScalarSort.scalarGt o.icmp L (isScal c.scaldims) s (scalOf a) (scalOf b)) (g.length * g.length + 1) g q
        cases hq : ScalarSort.bubble (fun a b : Loop D S =>
          ScalarSort.scalarGt o.icmp L (isScal c.scaldims) s (scalOf a) (scalOf b)) (g.length * g.length + 1) g with
        | none => exact ⟨rfl, fun r h => by simp at h⟩
        | some q =>
          exact scalarLoop_fine H (fun hw l m hl hm => G hw L s l m h2 hl hm)
            (restricted_fine H G fuel false d L (s + runLength c.scaldims (L + s - 1))) _ q
            (fun i hi => hP i ((hb q hq).1.subset hi))
      · rw [if_neg h2, if_neg h2]
        have := components_fine (c := c) (fuel := fuel) H (fun d => restricted_fine H G fuel true d (L + 1) s)
          (ls := projectAll o g L) (fun l hl => by
            obtain ⟨i, hi, rfl⟩ := List.mem_map.1 hl
            refine ⟨rfl, fun j hj => ?_⟩
            rw [project, Loop.inner, List.mem_singleton] at hj
            rw [hj]
            exact hP i hi)
        constructor
        · exact this.1
        · intro r h t ht hb
          exact absurd (this.2 r h t ht) hb

theorem lost_generate (H : Stmts o P) (G : w ≠ 0 → Grouped o c P) {fuel : Nat} {ls : List (Loop D S)} (hls : ∀ i ∈ ls, P i) (ctx : D) (L s : Nat) :
    (generateC o c fuel ls ctx L s).lost w = 0 := by
  unfold generateC
  rw [lost_add, lost_restrictAll, lost_ite rfl (restricted_fine H G fuel true ctx L s _ (restrictAll_P H hls ctx)).1]

end

theorem lost_simplify : ∀ (fuel : Nat) (ls : List (Loop D S)) (ctx : D), (simplifyC o fuel ls ctx).lost w = 0
  | 0, _, _ => rfl
  | fuel + 1, ls, ctx => by
    rw [simplifyC, lost_add]
    have : (simplifyPrepareC o fuel ls).lost w = 0 := lost_ite rfl (lost_disjoint _ _)
    rw [this]
    split
    · rfl
    · rw [lost_add, lost_total fun l => ?_]
      · rfl
      · unfold loopSimplifyC
        dsimp only
        refine lost_ite rfl ?_
        rw [lost_add, lost_simplify fuel]
        split
        · rfl
        · rw [lost_ite rfl rfl]

/-! ## The counters -/

mutual
/-- The blocks that a loop and the loops in it point to, once for each pointer. -/
def pointers : Loop D S → List Block
  | .mk _ _ _ b inner => b.toList ++ pointersL inner
/-- The same for a list of loops. -/
def pointersL : List (Loop D S) → List Block
  | [] => []
  | l :: ls => pointers l ++ pointersL ls
end

/-- Only the block `b` is looked at. -/
@[reducible] def one (b : Block) : Which := ⟨fun x => if x = b then 1 else 0⟩

omit [Which] in
mutual
theorem held_one (b : Block) : ∀ l : Loop D S, @held D S (one b) l = (pointers l).count b
  | .mk d t s x i => by
    letI := one b
    rw [held_mk, pointers, List.count_append, helds_one b i]
    congr 1
    cases x with
    | none => rfl
    | some x =>
      change (if x = b then 1 else 0) = _
      by_cases h : x = b
      · rw [if_pos h, h]; simp
      · rw [if_neg h]; simp [h]
theorem helds_one (b : Block) : ∀ ls : List (Loop D S), @helds D S (one b) ls = (pointersL ls).count b
  | [] => by letI := one b; rw [helds_nil, pointersL]; rfl
  | l :: ls => by letI := one b; rw [helds_cons, pointersL, List.count_append, held_one b l, helds_one b ls]
end

omit [Which] in
theorem bal_lost {c : Cost} (h : c.lost 1 = 0) : bal c = c.net := by
  have h' : 1 * c.drop + c.dup = 0 := h
  unfold bal; omega

/-- No pointer is dropped or duplicated by the generation, if the depths agree or the last dimension is no scalar. -/
theorem lost_generate' (hd : ∀ (l : Loop D S) ctx p, restrict o l ctx = some p → o.dim p.dom = o.dim l.dom)
    {c : Ctx} {fuel : Nat} {ls : List (Loop D S)} {ctx : D} (hin : ∀ l ∈ ls, l.inner = [])
    (hk : (∃ n, ∀ l ∈ ls, o.dim l.dom = n) ∨ (∀ i n, c.scaldims[i]? = some n → n ≠ 0 → i + n < c.scaldims.length)) :
    (generateC o c fuel ls ctx 0 0).lost 1 = 0 := by
  rcases hk with ⟨n, hn⟩ | hk
  · refine lost_generate (P := fun l => l.inner = [] ∧ o.dim l.dom = n) ⟨fun i h => h.1, ?_⟩ ?_ (fun l hl => ⟨hin l hl, hn l hl⟩) _ _ _
    · intro i ctx p hi hp
      exact ⟨(restrict_flat hp).1.trans hi.1, (hd i ctx p hp).trans hi.2⟩
    · exact fun _ => grouped_depth (fun l h => h.2)
  · refine lost_generate (P := fun l => l.inner = []) ⟨fun i h => h, ?_⟩ (fun _ => grouped_last hk) hin _ _ _
    intro i ctx p hi hp
    exact (restrict_flat hp).1.trans hi

omit [Which] in
/-- **C84**, no block is freed too early, in all cases: after generation the counter of a block is at least the number of loops
that point to it, so that a block in use is not freed. -/
theorem C84_safe (b : Block) (K : SortPerm o) {c : Ctx} {fuel : Nat} {ls t : List (Loop D S)} {ctx : D}
    (hin : ∀ l ∈ ls, l.inner = []) (h : generate o c fuel ls ctx 0 0 = some t) :
    ((pointersL t).count b : Int) ≤ (pointersL ls).count b + (@generateC D S C (one b) o c fuel ls ctx 0 0).net := by
  letI := one b
  have h1 := generate_bal K h
  have h2 : (generateC o c fuel ls ctx 0 0).lost 0 = 0 := by
    refine lost_generate (P := fun l => l.inner = []) ⟨fun i h => h, ?_⟩ (fun h => absurd rfl h) hin _ _ _
    intro i ctx p hi hp
    exact (restrict_flat hp).1.trans hi
  have h3 : 0 * (generateC o c fuel ls ctx 0 0).drop + (generateC o c fuel ls ctx 0 0).dup = 0 := h2
  rw [helds_one, helds_one] at h1
  unfold bal at h1
  omega

omit [Which] in
/-- **C84**, generation (part of the claim): for each block, the counter changes as much as the number of loops that point to
the block, if all statements have the same depth or the last dimension of the scattering is no scalar. -/
theorem C84_generate_partial (b : Block) (K : SortPerm o)
    (hd : ∀ (l : Loop D S) ctx p, restrict o l ctx = some p → o.dim p.dom = o.dim l.dom)
    {c : Ctx} {fuel : Nat} {ls t : List (Loop D S)} {ctx : D} (hin : ∀ l ∈ ls, l.inner = [])
    (hk : (∃ n, ∀ l ∈ ls, o.dim l.dom = n) ∨ (∀ i n, c.scaldims[i]? = some n → n ≠ 0 → i + n < c.scaldims.length))
    (h : generate o c fuel ls ctx 0 0 = some t) :
    ((pointersL ls).count b : Int) + (@generateC D S C (one b) o c fuel ls ctx 0 0).net = (pointersL t).count b := by
  letI := one b
  have h1 := generate_bal K h
  rw [bal_lost (lost_generate' hd hin hk)] at h1
  rw [helds_one, helds_one] at h1
  exact h1.symm

omit [Which] in
/-- **C84**, simplification: for each block, and whatever the loops are, the counter changes as much as the number of loops
that point to the block. -/
theorem C84_simplify (b : Block) {fuel : Nat} {t t' : List (Loop D S)} {ctx : D} (h : simplify o fuel t ctx = some t') :
    ((pointersL t).count b : Int) + (@simplifyC D S C (one b) o fuel t ctx).net = (pointersL t').count b := by
  letI := one b
  have h1 := simplify_bal _ _ _ _ h
  rw [bal_lost (lost_simplify _ _ _)] at h1
  rw [helds_one, helds_one] at h1
  exact h1.symm

omit [Which] in
/-- **C84**, the balance, in all cases: when the program is freed, the counter of a block is off by the pointers that were
dropped without being counted, minus those that were duplicated without being counted. -/
theorem C84_balance (b : Block) (K : SortPerm o) {c : Ctx} {simp : Bool} {fuel : Nat} {ls t : List (Loop D S)} {ctx : D}
    (h : generate o c fuel ls ctx 0 0 = some t) (hs : simp = true → (simplify o fuel t ctx).isSome = true) :
    ((pointersL ls).count b : Int) + (@programC D S C (one b) o c simp fuel ls ctx).net =
      (@programC D S C (one b) o c simp fuel ls ctx).drop - (@programC D S C (one b) o c simp fuel ls ctx).dup := by
  letI := one b
  have h1 := generate_bal K h
  rw [← helds_one]
  suffices hb : (helds ls : Int) + bal (programC o c simp fuel ls ctx) = 0 by
    unfold bal at hb; omega
  unfold programC
  rw [bal_add, h]
  dsimp only
  cases simp with
  | false => simp; omega
  | true =>
    obtain ⟨t', h'⟩ := Option.isSome_iff_exists.1 (hs rfl)
    have h2 := simplify_bal _ _ _ _ h'
    rw [h']
    simp; omega

omit [Which] in
/-- **C84**, the end (part of the claim): under the same assumptions all references of loops to a block are given up by the
time the program is freed. -/
theorem C84_freed_partial (b : Block) (K : SortPerm o)
    (hd : ∀ (l : Loop D S) ctx p, restrict o l ctx = some p → o.dim p.dom = o.dim l.dom)
    {c : Ctx} {simp : Bool} {fuel : Nat} {ls t : List (Loop D S)} {ctx : D} (hin : ∀ l ∈ ls, l.inner = [])
    (hk : (∃ n, ∀ l ∈ ls, o.dim l.dom = n) ∨ (∀ i n, c.scaldims[i]? = some n → n ≠ 0 → i + n < c.scaldims.length))
    (h : generate o c fuel ls ctx 0 0 = some t) (hs : simp = true → (simplify o fuel t ctx).isSome = true) :
    ((pointersL ls).count b : Int) + (@programC D S C (one b) o c simp fuel ls ctx).net = 0 := by
  letI := one b
  rw [C84_balance b K h hs]
  suffices hl : (programC o c simp fuel ls ctx).lost 1 = 0 by
    have h' : 1 * (programC o c simp fuel ls ctx).drop + (programC o c simp fuel ls ctx).dup = 0 := hl
    omega
  unfold programC
  rw [lost_add, lost_generate' hd hin hk, h]
  dsimp only
  cases simp with
  | false => simp
  | true =>
    obtain ⟨t', h'⟩ := Option.isSome_iff_exists.1 (hs rfl)
    rw [h']
    simp [lost_simplify]

/-! ## Examples -/

section Examples
open Verif.BoxDom Verif.Props.Generate Verif.Props.LoopCount

/-- Two statements with common iterations. -/
def sepB : List (Loop BD (Int × Int)) := [stmt 1 [] (box 1 [[1], [2], [3]]), stmt 2 [] (box 1 [[2], [3], [4]])]

/-- They are separated into three loops, two of which point to the block of the second statement; its counter has grown by
one, and at the end both references are given up. -/
example : (generate ops ⟨{}, []⟩ 20 sepB (box 0 [[]]) 0 0).map (fun t => ((pointersL sepB).count ⟨[2], []⟩,
      (pointersL t).count ⟨[2], []⟩)) = some (1, 2) ∧
    (@generateC _ _ _ (one ⟨[2], []⟩) ops ⟨{}, []⟩ 20 sepB (box 0 [[]]) 0 0).net = 1 ∧
    (@programC _ _ _ (one ⟨[2], []⟩) ops ⟨{}, []⟩ true 20 sepB (box 0 [[]])).net = -1 := by decide +kernel

/-- The hypothesis of `C84_simplify` holds for the result. -/
example : ((generate ops ⟨{}, []⟩ 20 sepB (box 0 [[]]) 0 0).bind fun t => (simplify ops 20 t (box 0 [[]])).map fun t' =>
    (pointersL t').count ⟨[2], []⟩) = some 2 := by decide +kernel

/-- The hypotheses of `C84_freed_partial` and `C84_generate_partial` hold for the two statements of `exB'`. -/
example (b : Block) : ((pointersL exB').count b : Int) + (@programC _ _ _ (one b) ops' exC' true 20 exB' (box 0 [[]])).net = 0 ∧
    ∀ t, generate ops' exC' 20 exB' (box 0 [[]]) 0 0 = some t →
      ((pointersL exB').count b : Int) + (@generateC _ _ _ (one b) ops' exC' 20 exB' (box 0 [[]]) 0 0).net = (pointersL t).count b := by
  have h0 : ((generate ops' exC' 20 exB' (box 0 [[]]) 0 0).bind (fun t => simplify ops' 20 t (box 0 [[]]))).isSome = true := by
    decide +kernel
  obtain ⟨t', ht'⟩ := Option.isSome_iff_exists.1 h0
  obtain ⟨t, ht, hs⟩ := Option.bind_eq_some_iff.1 ht'
  have hin : ∀ l ∈ exB', l.inner = [] := by
    intro l hl
    simp only [exB', List.mem_cons, List.not_mem_nil, or_false] at hl
    rcases hl with rfl | rfl <;> rfl
  have hn : ∀ l ∈ exB', ops'.dim l.dom = 2 := by
    intro l hl
    simp only [exB', List.mem_cons, List.not_mem_nil, or_false] at hl
    rcases hl with rfl | rfl <;> rfl
  exact ⟨C84_freed_partial (o := ops') (t := t) b ops_sort ops'_restrict hin (Or.inl ⟨2, hn⟩) ht (fun _ => by rw [hs]; rfl),
    fun t h => C84_generate_partial (o := ops') b ops_sort ops'_restrict hin (Or.inl ⟨2, hn⟩) h⟩

/-- **C84 is false** in general: with the statements of `C24_scalar_drops` the loop of the second statement is lost with its
pointer, so that after generation no loop points to the block, and at the end its counter is not zero: the block and its
statement are never freed. -/
theorem C84_leak : (generate ops dropC 20 dropB (box 0 [[]]) 0 0).map (fun t => (pointersL t).count ⟨[2], [0]⟩) = some 0 ∧
    ((pointersL dropB).count ⟨[2], [0]⟩ : Int) +
      (@generateC _ _ _ (one ⟨[2], [0]⟩) ops dropC 20 dropB (box 0 [[]]) 0 0).net = 1 ∧
    ((pointersL dropB).count ⟨[2], [0]⟩ : Int) +
      (@programC _ _ _ (one ⟨[2], [0]⟩) ops dropC false 20 dropB (box 0 [[]])).net = 1 := by decide +kernel

end Examples

end Verif.Props.BlockCount
