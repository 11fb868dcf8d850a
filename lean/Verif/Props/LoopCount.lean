import Verif.Model.LoopCount
import Verif.Props.OneCopy
import Verif.Props.LastLevel

/-!
# The allocation statistics of loops (C83)
-/

namespace Verif.Props.LoopCount
open Verif.Loop Verif.LoopCount Verif.Props.LastLevel Verif.Props.Separated
open Verif.Gen hiding generateC generateRestrictedC generateComponentsC

variable {D S C : Type} {o : DomOps D S C}

/-! ## Counting -/

/-- What is left more, or less, of the loops that can be reached. -/
def bal (c : Cost) : Int := c.net - c.lost

@[simp] theorem bal_add (a b : Cost) : bal (a + b) = bal a + bal b := by
  change (a.net + b.net) - ((a.lost + b.lost : Nat) : Int) = _
  unfold bal; push_cast; omega
@[simp] theorem bal_idle : bal idle = 0 := rfl
@[simp] theorem bal_alloc (n : Nat) : bal (alloc n) = n := by simp [bal, alloc]
@[simp] theorem bal_free (n : Nat) : bal (free n) = -n := by simp [bal, free]
@[simp] theorem bal_lose (n : Nat) : bal (lose n) = -n := by simp [bal, lose]

@[simp] theorem size_mk (d : D) (t : Bool) (s : Option S) (b : Option Block) (i : List (Loop D S)) :
    size (.mk d t s b i) = 1 + sizes i := by rw [size]
theorem size_eq (l : Loop D S) : size l = 1 + sizes l.inner := by cases l; rw [size]; rfl
@[simp] theorem sizes_nil : sizes ([] : List (Loop D S)) = 0 := by rw [sizes]
@[simp] theorem sizes_cons (l : Loop D S) (ls : List (Loop D S)) : sizes (l :: ls) = size l + sizes ls := by rw [sizes]
@[simp] theorem size_setDom (l : Loop D S) (d : D) : size (l.setDom d) = size l := by rw [size_eq, size_eq l]; rfl
@[simp] theorem size_setInner (l : Loop D S) (i : List (Loop D S)) : size (l.setInner i) = 1 + sizes i := by rw [size_eq]; rfl

@[simp] theorem sizes_append (a b : List (Loop D S)) : sizes (a ++ b) = sizes a + sizes b := by
  induction a with
  | nil => simp
  | cons l a ih => simp [ih, Nat.add_assoc]

theorem sizes_perm {a b : List (Loop D S)} (h : a.Perm b) : sizes a = sizes b := by
  induction h with
  | nil => rfl
  | cons x _ ih => simp [ih]
  | swap x y l => simp; omega
  | trans _ _ h1 h2 => exact h1.trans h2

theorem sizes_inner (ls : List (Loop D S)) : sizes ls = ls.length + sizes (ls.flatMap Loop.inner) := by
  induction ls with
  | nil => simp
  | cons l ls ih => rw [sizes_cons, ih, size_eq, List.flatMap_cons, sizes_append, List.length_cons]; omega

theorem sizes_map {f : Loop D S → Loop D S} (hf : ∀ l, size (f l) = size l) (ls : List (Loop D S)) : sizes (ls.map f) = sizes ls := by
  induction ls with
  | nil => rfl
  | cons l ls ih => simp [hf, ih]

theorem total_append {α : Type} (f : α → Cost) (a b : List α) : bal (total f (a ++ b)) = bal (total f a) + bal (total f b) := by
  induction a with
  | nil => simp [total]
  | cons x a ih => simp [total, ih]; omega

/-- A partial function on each element. -/
theorem flatMapM_bal {f : Loop D S → Option (List (Loop D S))} {fC : Loop D S → Cost} : ∀ {ls r : List (Loop D S)},
    (∀ l ∈ ls, ∀ r, f l = some r → (sizes r : Int) = size l + bal (fC l)) → flatMapM f ls = some r →
    (sizes r : Int) = sizes ls + bal (total fC ls)
  | [], r, _, h => by
    simp only [flatMapM] at h
    obtain rfl := Option.some.inj h
    simp [total]
  | l :: ls, r, hf, h => by
    simp only [flatMapM] at h
    split at h
    · simp at h
    · rename_i bs hb
      split at h
      · simp at h
      · rename_i cs hc
        obtain rfl := Option.some.inj h
        have h1 := hf l List.mem_cons_self bs hb
        have h2 := flatMapM_bal (fun l h => hf l (List.mem_cons_of_mem _ h)) hc
        simp only [sizes_append, sizes_cons, total, bal_add]
        push_cast
        omega

/-- The same for lists of lists. -/
theorem flatMapM_bal' {f : List (Loop D S) → Option (List (Loop D S))} {fC : List (Loop D S) → Cost} :
    ∀ {ls : List (List (Loop D S))} {r : List (Loop D S)},
    (∀ l ∈ ls, ∀ r, f l = some r → (sizes r : Int) = sizes l + bal (fC l)) → flatMapM f ls = some r →
    (sizes r : Int) = sizes ls.flatten + bal (total fC ls)
  | [], r, _, h => by
    simp only [flatMapM] at h
    obtain rfl := Option.some.inj h
    simp [total]
  | l :: ls, r, hf, h => by
    simp only [flatMapM] at h
    split at h
    · simp at h
    · rename_i bs hb
      split at h
      · simp at h
      · rename_i cs hc
        obtain rfl := Option.some.inj h
        have h1 := hf l List.mem_cons_self bs hb
        have h2 := flatMapM_bal' (fun l h => hf l (List.mem_cons_of_mem _ h)) hc
        simp only [sizes_append, List.flatten_cons, total, bal_add]
        push_cast
        omega

theorem filterMap_bal {f : Loop D S → Option (Loop D S)} {fC : Loop D S → Cost} : ∀ (ls : List (Loop D S)),
    (∀ l ∈ ls, (sizes (f l).toList : Int) = size l + bal (fC l)) →
    (sizes (ls.filterMap f) : Int) = sizes ls + bal (total fC ls)
  | [], _ => by simp [total]
  | l :: ls, hf => by
    have h1 := hf l List.mem_cons_self
    have h2 := filterMap_bal ls (fun l h => hf l (List.mem_cons_of_mem _ h))
    rw [List.filterMap_cons]
    cases hl : f l with
    | none =>
      rw [hl] at h1
      simp only [total, bal_add, sizes_cons, Option.toList_none, sizes_nil] at h1 ⊢
      push_cast
      omega
    | some m =>
      rw [hl] at h1
      simp only [total, bal_add, sizes_cons, Option.toList_some, sizes_nil] at h1 ⊢
      push_cast at h1 ⊢
      omega

theorem some_of_ite {α : Type} {c : Prop} [Decidable c] {x p : α} (h : (if c then none else some x) = some p) : x = p := by
  split at h
  · simp at h
  · exact Option.some.inj h

/-! ## The functions -/

theorem splitRest_bal {rec_ : Loop D S → Option (List (Loop D S))} {recC : Loop D S → Cost}
    (hr : ∀ l r, rec_ l = some r → (sizes r : Int) = size l + bal (recC l)) (b : Option Block) (inner : List (Loop D S)) :
    ∀ (fuel : Nat) (rest seen : D) (r : List (Loop D S)), splitRest o rec_ b inner fuel rest seen = some r →
      (sizes r : Int) = bal (splitRestC o recC b inner fuel rest seen)
  | 0, _, _, _, h => by simp [splitRest] at h
  | fuel + 1, rest, seen, r, h => by
    rw [splitRest] at h
    rw [splitRestC]
    split at h
    · rename_i h1
      obtain rfl := Option.some.inj h
      rw [if_pos h1]; simp
    · rename_i h1
      rw [if_neg h1]
      split at h
      · rename_i h2
        rw [if_pos h2]
        exact splitRest_bal hr b inner fuel _ _ _ h
      · rename_i h2
        rw [if_neg h2]
        split at h
        · simp at h
        · rename_i pieces hp
          have h3 : (sizes pieces : Int) = sizes inner + 1 +
              bal (if o.isConvex (o.diff (o.cutFirst rest).1 seen) then idle
                else recC (Loop.mk (o.diff (o.cutFirst rest).1 seen) false none b inner)) := by
            split at hp
            · rename_i h4
              obtain rfl := Option.some.inj hp
              rw [if_pos h4]; simp; omega
            · rename_i h4
              rw [if_neg h4]
              have := hr _ _ hp
              simp at this; omega
          simp only [bal_add, bal_alloc]
          split at h
          · rename_i h5
            obtain rfl := Option.some.inj h
            rw [if_pos h5]; simp; omega
          · rename_i h5
            rw [if_neg h5]
            split at h
            · simp at h
            · rename_i more hm
              obtain rfl := Option.some.inj h
              have := splitRest_bal hr b inner fuel _ _ _ hm
              rw [sizes_append]; push_cast; omega

theorem addDisjoint_bal : ∀ (fuel : Nat) (l : Loop D S) (r : List (Loop D S)), addDisjoint o fuel l = some r →
    (sizes r : Int) = size l + bal (addDisjointC o fuel l)
  | 0, _, _, h => by simp [addDisjoint] at h
  | fuel + 1, l, r, h => by
    rw [addDisjoint] at h
    rw [addDisjointC]
    split at h
    · rename_i h1
      obtain rfl := Option.some.inj h
      rw [if_pos h1]; simp
    · rename_i h1
      rw [if_neg h1]
      split at h
      · simp at h
      · rename_i more hm
        obtain rfl := Option.some.inj h
        have := splitRest_bal (fun l r h => addDisjoint_bal fuel l r h) _ _ _ _ _ _ hm
        have := size_eq l
        simp; omega

theorem disjoint_bal {fuel : Nat} {ls r : List (Loop D S)} (h : disjoint o fuel ls = some r) :
    (sizes r : Int) = sizes ls + bal (disjointC o fuel ls) :=
  flatMapM_bal (fun l _ r h => addDisjoint_bal fuel l r h) h

theorem restrict_size {l p : Loop D S} {ctx : D} (h : restrict o l ctx = some p) : size p = size l := by
  unfold restrict at h
  obtain rfl := some_of_ite h
  rw [size_mk, size_eq l]

theorem restrictAll_bal (ls : List (Loop D S)) (ctx : D) :
    (sizes (restrictAll o ls ctx) : Int) = sizes ls + bal (restrictAllC o ls ctx) := by
  refine filterMap_bal ls fun l _ => ?_
  unfold restrictC
  cases h : restrict o l ctx with
  | none => simp
  | some p =>
    have := restrict_size h
    simp; omega

theorem restrictInner_bal (ls : List (Loop D S)) :
    (sizes (restrictInner o ls) : Int) = sizes ls + bal (restrictInnerC o ls) := by
  refine filterMap_bal ls fun l _ => ?_
  have h := restrictAll_bal (o := o) l.inner l.dom
  have hs := size_eq l
  by_cases he : (restrictAll o l.inner l.dom).isEmpty = true
  · rw [if_pos he, if_pos he]
    rw [List.isEmpty_iff] at he
    rw [he] at h
    simp at h ⊢; omega
  · rw [if_neg he, if_neg he]
    simp; omega

theorem projectAll_bal (ls : List (Loop D S)) (level : Nat) :
    (sizes (projectAll o ls level) : Int) = sizes ls + bal (projectAllC ls) := by
  induction ls with
  | nil => simp [projectAll, projectAllC, total]
  | cons l ls ih =>
    simp only [projectAll, List.map_cons, sizes_cons, projectAllC, total, bal_add, projectC, bal_alloc, bal_free] at ih ⊢
    have : size (project o level l) = 1 + size l := by unfold project; simp
    push_cast at ih ⊢
    omega

theorem combineFrom_bal : ∀ (ls : List (Loop D S)) (a : Loop D S),
    (sizes (combineFrom o a ls) : Int) = size a + sizes ls + bal (combineFromC o a ls)
  | [], a => by simp [combineFrom, combineFromC]
  | b :: ls, a => by
    rw [combineFrom, combineFromC]
    split
    · rename_i h
      rw [combineFrom_bal ls]
      have := size_eq a
      have := size_eq b
      simp; omega
    · have := combineFrom_bal ls b
      simp; omega

theorem combine_bal (ls : List (Loop D S)) : (sizes (combine o ls) : Int) = sizes ls + bal (combineC o ls) := by
  cases ls with
  | nil => simp [combine, combineC]
  | cons a ls => rw [combine, combineC, combineFrom_bal]; simp

theorem removeEmpty_bal (ls : List (Loop D S)) : (sizes (removeEmpty o ls) : Int) = sizes ls + bal (removeEmptyC o ls) := by
  unfold removeEmpty removeEmptyC
  induction ls with
  | nil => simp [total]
  | cons l ls ih =>
    rw [List.filter_cons]
    by_cases h : o.isEmpty l.dom = true
    · simp [h, total]; omega
    · simp [h, total]; omega

theorem sepInter_size {q l p : Loop D S} (h : sepInter o q l = some p) : size p = 1 + sizes q.inner + sizes l.inner := by
  unfold sepInter at h
  split at h
  · simp at h
  · obtain rfl := some_of_ite h
    simp; omega

theorem sepDiff_size {q l p : Loop D S} (h : sepDiff o q l = some p) : size p = 1 + sizes q.inner := by
  unfold sepDiff at h
  obtain rfl := some_of_ite h
  simp

theorem sepRest_size {uq : D} {l p : Loop D S} (h : sepRest o uq l = some p) : size p = 1 + sizes l.inner := by
  unfold sepRest at h
  obtain rfl := some_of_ite h
  simp

theorem sepPieces_bal (fuel : Nat) (uq : D) (l : Loop D S) (res : List (Loop D S)) :
    (sizes (sepPieces o res uq l) : Int) + bal (total (addDisjointC o fuel) (sepPieces o res uq l)) =
      sizes res + sizes l.inner + bal (sepStepC o fuel res uq l) := by
  have hrest : (sizes (sepRest o uq l).toList : Int) + bal (total (addDisjointC o fuel) (sepRest o uq l).toList) =
      sizes l.inner + bal (sepRestC o fuel uq l) := by
    unfold sepRestC
    cases h : sepRest o uq l with
    | none => simp [total]
    | some p => have := sepRest_size h; simp [total]; omega
  have hq : ∀ res : List (Loop D S), (sizes (res.flatMap (fun q => (sepInter o q l).toList ++ (sepDiff o q l).toList)) : Int) +
      bal (total (addDisjointC o fuel) (res.flatMap (fun q => (sepInter o q l).toList ++ (sepDiff o q l).toList))) =
      sizes res - res.length + bal (total (fun q => sepInterC o fuel q l + sepDiffC o fuel q l) res) := by
    intro res
    induction res with
    | nil => simp [total]
    | cons q res ih =>
      have h1 : (sizes (sepInter o q l).toList : Int) + bal (total (addDisjointC o fuel) (sepInter o q l).toList) =
          bal (sepInterC o fuel q l) := by
        unfold sepInterC
        cases h : sepInter o q l with
        | none => simp [total]
        | some p => have := sepInter_size h; simp [total]; omega
      have h2 : (sizes (sepDiff o q l).toList : Int) + bal (total (addDisjointC o fuel) (sepDiff o q l).toList) =
          sizes q.inner + bal (sepDiffC o fuel q l) := by
        unfold sepDiffC
        cases h : sepDiff o q l with
        | none => simp [total]
        | some p => have := sepDiff_size h; simp [total]; omega
      have := size_eq q
      rw [List.flatMap_cons, total_append, total_append, sizes_append, sizes_append, total, bal_add, bal_add, sizes_cons,
        List.length_cons]
      push_cast
      omega
  unfold sepPieces sepStepC
  rw [total_append, sizes_append, bal_add, bal_add, bal_free]
  have := hq res
  push_cast
  omega

theorem sepLoop_bal (fuel : Nat) : ∀ (ls res : List (Loop D S)) (uq : D) (r : List (Loop D S)), sepLoop o fuel ls res uq = some r →
    (sizes r : Int) = sizes res + (sizes ls - ls.length) + bal (sepLoopC o fuel ls res uq)
  | [], res, uq, r, h => by
    rw [sepLoop] at h
    obtain rfl := Option.some.inj h
    simp [sepLoopC]
  | l :: ls, res, uq, r, h => by
    rw [sepLoop] at h
    rw [sepLoopC]
    split at h
    · simp at h
    · rename_i res' hr
      rw [hr]
      dsimp only
      have h1 := sepLoop_bal fuel ls _ _ _ h
      have h2 := flatMapM_bal (fC := addDisjointC o fuel) (fun l _ r h => addDisjoint_bal fuel l r h) hr
      have h3 := sepPieces_bal (o := o) fuel uq l res
      have := size_eq l
      rw [bal_add, sizes_cons, List.length_cons]
      push_cast
      omega

theorem separate_bal {fuel : Nat} {ls r : List (Loop D S)} (h : separate o fuel ls = some r) :
    (sizes r : Int) = sizes ls + bal (separateC o fuel ls) := by
  have hc := combine_bal (o := o) ls
  unfold separate at h
  unfold separateC
  rw [bal_add]
  split at h
  · rename_i he
    obtain rfl := Option.some.inj h
    rw [he] at hc ⊢
    simp at hc ⊢; omega
  · rename_i l he
    rw [he] at hc ⊢
    have := disjoint_bal h
    dsimp only
    omega
  · rename_i l ls' hne he
    rw [he] at hc ⊢
    obtain ⟨m, ms, rfl⟩ : ∃ m ms, ls' = m :: ms := by
      cases ls' with
      | nil => exact absurd rfl hne
      | cons m ms => exact ⟨m, ms, rfl⟩
    have h1 := sepLoop_bal fuel _ _ _ _ h
    have h2 := size_eq l
    simp at h1 h2 hc ⊢
    omega

theorem mergeSplit_bal (opt : Options) (temp : D) (inner : List (Loop D S)) : ∀ (fuel : Nat) (sp : D) (res r : List (Loop D S)),
    mergeSplit o opt temp inner fuel sp res = some r →
    (sizes r : Int) = sizes res + sizes inner + bal (mergeSplitC o opt temp inner fuel sp)
  | 0, _, _, _, h => by simp [mergeSplit] at h
  | fuel + 1, sp, res, r, h => by
    rw [mergeSplit] at h
    rw [mergeSplitC]
    split at h
    · rename_i h1
      rw [if_pos h1]
      dsimp only at h
      split at h
      · rename_i h2
        obtain rfl := Option.some.inj h
        rw [if_pos h2]; simp
      · rename_i h2
        obtain rfl := Option.some.inj h
        rw [if_neg h2]; simp; omega
    · rename_i h1
      rw [if_neg h1]
      dsimp only at h
      have := mergeSplit_bal opt temp inner fuel _ _ _ h
      rw [bal_add, this]
      split
      · simp
      · simp; omega

theorem merge_bal {fuel level : Nat} {opt : Options} {ls r : List (Loop D S)} (h : merge o fuel level opt ls = some r) :
    (sizes r : Int) = sizes ls + bal (mergeC o fuel level opt ls) := by
  cases ls with
  | nil =>
    rw [merge] at h
    obtain rfl := Option.some.inj h
    simp [mergeC]
  | cons l ls =>
    have hi := sizes_inner (l :: ls)
    rw [List.length_cons] at hi
    rw [merge] at h
    rw [mergeC]
    split at h
    · rename_i h1
      obtain rfl := Option.some.inj h
      rw [if_pos h1]
      have : ls = [] := by simpa using h1.1
      subst this
      simp
    · rename_i h1
      rw [if_neg h1]
      dsimp only at h ⊢
      rw [bal_add, bal_free]
      split at h
      · rename_i h2
        rw [if_pos h2]
        have := mergeSplit_bal opt _ _ _ _ _ _ h
        rw [hi]; simp at this ⊢; omega
      · rename_i h2
        rw [if_neg h2]
        obtain rfl := Option.some.inj h
        rw [hi]; simp; omega

/-- What is assumed of `cloog_domain_sort`: a permutation is returned. -/
def SortPerm (o : DomOps D S C) : Prop := ∀ ds L perm, 0 < L → o.sort ds L = some perm → perm.Perm (List.range ds.length)

theorem sort_bal (K : SortPerm o) {L : Nat} {ls r : List (Loop D S)} (h : sort o L ls = some r) : sizes r = sizes ls := by
  unfold sort at h
  split at h
  · obtain rfl := Option.some.inj h; rfl
  · rename_i hL
    split at h
    · obtain rfl := Option.some.inj h; rfl
    · split at h
      · simp at h
      · rename_i perm hp
        obtain rfl := Option.some.inj h
        have h1 := K _ L perm (Nat.pos_of_ne_zero hL) hp
        rw [List.length_map] at h1
        have := h1.filterMap (fun i => ls[i]?)
        rw [Verif.Gen.filterMap_range] at this
        exact sizes_perm this

theorem nestProjections_size (d : D) (level : Nat) : ∀ (n : Nat) (t : Loop D S), size (nestProjections o d level n t) = n + size t
  | 0, t => by simp [nestProjections]
  | n + 1, t => by rw [nestProjections, nestProjections_size d level n]; simp; omega

theorem nest_bal {fuel : Nat} {ls r : List (Loop D S)} {ctx : D} {level : Nat} (h : nest o fuel ls ctx level = some r) :
    (sizes r : Int) = sizes ls + bal (nestC o fuel ls ctx level) := by
  unfold nest at h
  unfold nestC
  split at h
  · simp at h
  · rename_i ds hd
    obtain rfl := Option.some.inj h
    rw [hd]
    dsimp only
    rw [bal_add]
    have h1 := disjoint_bal hd
    have h2 := filterMap_bal (f := nestOne o ctx level) (fC := nestOneC o ctx level) ds (fun l _ => by
      unfold nestOne nestOneC restrictC
      cases hr : restrict o l ctx with
      | none => simp
      | some p =>
        have := restrict_size hr
        have := size_eq p
        simp [nestProjections_size]
        omega)
    omega

theorem constant_bal (ls : List (Loop D S)) : (sizes (constant o ls) : Int) = sizes ls + bal (constantC ls) := by
  cases ls with
  | nil => simp [constant, constantC]
  | cons l ls =>
    have hi := sizes_inner (l :: ls)
    rw [List.length_cons] at hi
    rw [constant, constantC, hi]
    simp; omega

theorem unrollOne_bal (level : Nat) (l : Loop D S) : (sizes (unrollOne o level l) : Int) = size l + bal (unrollOneC o level l) := by
  unfold unrollOne unrollOneC
  cases o.canUnroll l.dom level with
  | none => simp
  | some nl =>
    obtain ⟨n, lb⟩ := nl
    dsimp only
    rw [bal_add, bal_free]
    generalize List.range n.toNat = is
    suffices h : ∀ is : List Nat, (sizes (is.filterMap (fun i : Nat =>
        if (restrictAll o l.inner (o.fixedOffset l.dom level lb i)).isEmpty = true then none
        else some (Loop.mk (o.fixedOffset l.dom level lb i) true none none
          (restrictAll o l.inner (o.fixedOffset l.dom level lb i))))) : Int) =
        bal (total (fun i : Nat =>
          alloc (sizes l.inner) + restrictAllC o l.inner (o.fixedOffset l.dom level lb i) +
          if (restrictAll o l.inner (o.fixedOffset l.dom level lb i)).isEmpty then idle else alloc 1) is) by
      rw [h is]; omega
    intro is
    induction is with
    | nil => simp [total]
    | cons i is ih =>
      have h := restrictAll_bal (o := o) l.inner (o.fixedOffset l.dom level lb i)
      rw [List.filterMap_cons, total, bal_add, bal_add, bal_add, bal_alloc, ← ih]
      by_cases he : (restrictAll o l.inner (o.fixedOffset l.dom level lb i)).isEmpty = true
      · simp only [if_pos he]
        rw [List.isEmpty_iff] at he
        rw [he] at h
        simp at h ⊢; omega
      · simp only [if_neg he]
        simp; omega

theorem decomposeOne_bal {level scalar : Nat} {scaldims : List Nat} {l : Loop D S} {r : List (Loop D S)}
    (h : decomposeOne o level scalar scaldims l = some r) :
    (sizes r : Int) = size l + bal (decomposeOneC o level scalar scaldims l) := by
  unfold decomposeOne at h
  unfold decomposeOneC
  split at h
  · rename_i h1
    obtain rfl := Option.some.inj h
    rw [if_pos h1]; simp
  · rename_i h1
    rw [if_neg h1]
    split at h
    · simp at h
    · rename_i cs hc
      obtain rfl := Option.some.inj h
      rw [hc]
      dsimp only
      have hp := Verif.Props.OneCopy.components_perm hc
      have hs := sizes_perm hp
      have hl : 0 < cs.length := by
        cases cs with
        | nil => have := hp.length_eq; simp at this; omega
        | cons => simp
      have : ∀ cs : List (List (Loop D S)), sizes (cs.map (fun c => Loop.mk l.dom l.otl l.stride l.block c)) =
          cs.length + sizes cs.flatten := by
        intro cs
        induction cs with
        | nil => simp
        | cons c cs ih => simp [ih]; omega
      rw [this, hs, size_eq l, bal_alloc]
      omega

theorem specializeOne_size (l : Loop D S) : size (specializeOne o l) = size l := by
  unfold specializeOne
  split
  · split <;> simp
  · rfl

theorem specialize_bal {level scalar : Nat} {scaldims : List Nat} {ls r : List (Loop D S)}
    (h : specialize o level scalar scaldims ls = some r) : (sizes r : Int) = sizes ls + bal (specializeC o level scalar scaldims ls) := by
  unfold specialize at h
  unfold specializeC
  split at h
  · simp at h
  · rename_i ds hd
    obtain rfl := Option.some.inj h
    rw [hd]
    dsimp only
    have h1 := flatMapM_bal (fC := decomposeOneC o level scalar scaldims) (fun l _ r h => decomposeOne_bal h) hd
    have h2 := removeEmpty_bal (o := o) (ds.map (specializeOne o))
    have h3 := sizes_map (specializeOne_size (o := o)) ds
    rw [bal_add, h2, h3, h1]
    omega

theorem propagate_size (ls : List (Loop D S)) : sizes (propagate o ls) = sizes ls := by
  refine sizes_map (fun l => ?_) ls
  unfold propagateOne
  split
  · split <;> simp
  · rfl

theorem backtrackOnes_bal (level : Nat) (d : D) (is : List (Loop D S)) :
    (sizes (is.map (backtrackOne o level d)) : Int) = sizes is + bal (total backtrackOneC is) := by
  induction is with
  | nil => simp [total]
  | cons i is ih =>
    have h : (size (backtrackOne o level d i) : Int) = size i + bal (backtrackOneC i) := by
      have := size_eq i
      unfold backtrackOne backtrackOneC
      cases i.block with
      | none => simp [project, projectC]; omega
      | some b => simp; omega
    rw [List.map_cons, sizes_cons, sizes_cons, total, bal_add]
    push_cast
    omega

theorem backtrackLoop_bal (K : SortPerm o) {fuel level : Nat} {l : Loop D S} {r : List (Loop D S)}
    (h : backtrackLoop o fuel level l = some r) : (sizes r : Int) = size l + bal (backtrackLoopC o fuel level l) := by
  have h0 := size_eq l
  unfold backtrackLoop at h
  unfold backtrackLoopC
  split at h
  · rename_i h1
    obtain rfl := Option.some.inj h
    rw [if_pos h1]
    rw [List.isEmpty_iff] at h1
    rw [h1] at h0 ⊢
    simp [total] at h0 ⊢; omega
  · rename_i h1
    rw [if_neg h1]
    split at h
    · simp at h
    · rename_i s hs
      have h2 := separate_bal hs
      have h3 := sort_bal K h
      have h4 := backtrackOnes_bal (o := o) level l.dom l.inner
      rw [bal_add, bal_add, bal_free]
      omega

/-- What is assumed of the recursive call. -/
def Bal (gen : List (Loop D S) → D → Nat → Nat → Option (List (Loop D S))) (genC : List (Loop D S) → D → Nat → Nat → Cost) : Prop :=
  ∀ g d L s r, gen g d L s = some r → (sizes r : Int) = sizes g + bal (genC g d L s)

theorem recurseInner_bal {gen : List (Loop D S) → Option (List (Loop D S))} {genC : List (Loop D S) → Cost}
    (hg : ∀ g r, gen g = some r → (sizes r : Int) = sizes g + bal (genC g)) (L s nb : Nat) :
    ∀ (n : Nat) (ls r : List (Loop D S)), recurseInner o gen L s nb n ls = some r →
      (sizes r : Int) = sizes ls + bal (recurseInnerC o genC L s nb n ls)
  | 0, [], r, h => by
    rw [recurseInner] at h; obtain rfl := Option.some.inj h; simp [recurseInnerC]
  | n + 1, [], r, h => by
    rw [recurseInner] at h; obtain rfl := Option.some.inj h; simp [recurseInnerC]
  | 0, _ :: _, r, h => by simp [recurseInner] at h
  | n + 1, l :: ls, r, h => by
    rw [recurseInner] at h
    rw [recurseInnerC]
    split at h
    · rename_i h1
      rw [if_pos h1]
      split at h
      · simp at h
      · rename_i q hq
        split at h
        · simp at h
        · rename_i rs hrs
          obtain rfl := Option.some.inj h
          have h2 := hg _ _ hq
          have h3 := recurseInner_bal hg L s nb n _ _ hrs
          have h4 : sizes (l :: ls) = sizes (spanMore o L s nb (l :: ls)).1 + sizes (spanMore o L s nb (l :: ls)).2 := by
            rw [← sizes_append]
            unfold spanMore
            rw [List.span_eq_takeWhile_dropWhile, List.takeWhile_append_dropWhile]
          rw [h4, sizes_append, bal_add]
          push_cast
          omega
    · rename_i h1
      rw [if_neg h1]
      split at h
      · simp at h
      · rename_i rs hrs
        obtain rfl := Option.some.inj h
        have := recurseInner_bal hg L s nb n _ _ hrs
        simp; omega

theorem loopOtl_inner (level : Nat) (l : Loop D S) : (loopOtl o level l).inner = l.inner := by cases l; rfl

theorem loopStride_size (level : Nat) (l : Loop D S) : size (loopStride o level l) = size l := by
  cases l
  rw [loopStride]
  split
  · rfl
  · split
    · simp
    · split
      · rfl
      · simp

theorem recurseBelow_bal {c : Ctx} {gen : List (Loop D S) → D → Nat → Nat → Option (List (Loop D S))}
    {genC : List (Loop D S) → D → Nat → Nat → Cost} (hg : Bal gen genC) {L s : Nat} {l : Loop D S} {r : List (Loop D S)}
    (h : loopRecurseConst o c gen L s l = some r) : (sizes r : Int) = size l + bal (recurseBelowC o c genC L s l) := by
  unfold loopRecurseConst recurseBelow at h
  unfold recurseBelowC
  dsimp only at h ⊢
  have h0 : size (if 0 < L ∧ c.opt.otl = true then loopOtl o L l else l) = size l := by
    split
    · rw [size_eq, loopOtl_inner, size_eq l]
    · rfl
  rw [← h0]
  generalize (if 0 < L ∧ c.opt.otl = true then loopOtl o L l else l) = m at h ⊢
  split at h
  · simp at h
  · rename_i into hi
    obtain rfl := Option.some.inj h
    have h1 := recurseInner_bal (fun g r h => hg g _ (L + 1) s r h) _ _ _ _ _ _ hi
    have h2 := size_eq m
    simp only [sizes_cons, size_setInner, sizes_nil, h2]
    push_cast
    rw [h1, add_zero, add_assoc]
    rfl

theorem loopRecurse_bal {c : Ctx} {gen : List (Loop D S) → D → Nat → Nat → Option (List (Loop D S))}
    {genC : List (Loop D S) → D → Nat → Nat → Cost} (hg : Bal gen genC) {k : Bool} {L s : Nat} {l : Loop D S} {r : List (Loop D S)}
    (h : loopRecurse o c gen k L s l = some r) : (sizes r : Int) = size l + bal (loopRecurseC o c genC k L s l) := by
  have hp : ∀ q, recursePrepare o c k L s l = some q →
      ((match q with | .inl m => size m | .inr ms => sizes ms : Nat) : Int) = size l + bal (recursePrepareC o c k L s l) := by
    intro q hq
    unfold recursePrepare at hq
    unfold recursePrepareC
    dsimp only at hq ⊢
    have h0 : size (if 0 < L ∧ c.opt.strides = true ∧ k = false then loopStride o L l else l) = size l := by
      split
      · exact loopStride_size L l
      · rfl
    rw [← h0]
    generalize (if 0 < L ∧ c.opt.strides = true ∧ k = false then loopStride o L l else l) = m at hq ⊢
    split at hq
    · rename_i h1
      rw [if_pos h1, ← unrollOne_bal]
      unfold unrolled at hq
      split at hq
      · simp at hq
      · rename_i m' hm
        obtain rfl := Option.some.inj hq
        simp [hm]
      · rename_i a b ms hm
        obtain rfl := Option.some.inj hq
        simp [hm]
    · rename_i h1
      obtain rfl := Option.some.inj hq
      rw [if_neg h1]; simp
  unfold loopRecurse at h
  unfold loopRecurseC
  split at h
  · simp at h
  · rename_i m hm
    rw [hm, bal_add]
    have := hp _ hm
    have := recurseBelow_bal hg h
    dsimp only at *
    omega
  · rename_i ms hm
    rw [hm, bal_add]
    have := hp _ hm
    have := flatMapM_bal (fC := recurseBelowC o c genC L s) (fun l _ r h => recurseBelow_bal hg h) h
    dsimp only at *
    omega

theorem nestBelow_bal {fuel L : Nat} {l : Loop D S} {r : List (Loop D S)} (h : nestBelow o fuel L l = some r) :
    (sizes r : Int) = size l + bal (nestBelowC o fuel L l) := by
  unfold nestBelow at h
  unfold nestBelowC
  split at h
  · simp at h
  · rename_i i hi
    obtain rfl := Option.some.inj h
    have := nest_bal hi
    have := size_eq l
    simp; omega

theorem general_bal (K : SortPerm o) {fuel : Nat} {c : Ctx} {gen : List (Loop D S) → D → Nat → Nat → Option (List (Loop D S))}
    {genC : List (Loop D S) → D → Nat → Nat → Cost} (hg : Bal gen genC) {L s : Nat} {ls r : List (Loop D S)}
    (h : generateGeneral o fuel c gen L s ls = some r) :
    (sizes r : Int) = sizes ls + bal (generateGeneralC o fuel c gen genC L s ls) := by
  unfold generateGeneral at h
  unfold generateGeneralC
  dsimp only at h ⊢
  generalize levels c.opt ls = fl at h ⊢
  split at h
  · simp at h
  · rename_i r3 sep cst h3
    rw [h3, bal_add]
    have g3 : (sizes r3 : Int) = sizes ls + bal (step3C o fuel c L s fl.1 ls) := by
      unfold step3 at h3
      unfold step3C
      split at h3
      · rename_i h1
        rw [if_pos h1]
        simp only [Option.some.injEq, Prod.mk.injEq] at h3
        obtain ⟨rfl, _⟩ := h3
        exact constant_bal ls
      · rename_i h1
        rw [if_neg h1]
        split at h3
        · rename_i h2
          rw [if_pos h2]
          rw [Option.map_eq_some_iff] at h3
          obtain ⟨q, hq, he⟩ := h3
          simp only [Prod.mk.injEq] at he
          obtain ⟨rfl, _⟩ := he
          exact merge_bal hq
        · rename_i h2
          rw [if_neg h2]
          rw [Option.map_eq_some_iff] at h3
          obtain ⟨q, hq, he⟩ := h3
          simp only [Prod.mk.injEq] at he
          obtain ⟨rfl, _⟩ := he
          exact separate_bal hq
    dsimp only
    split at h
    · simp at h
    · rename_i r3b h3b
      rw [h3b, bal_add]
      have g3b : (sizes r3b : Int) = sizes r3 + bal (step3bC o c L s sep r3) := by
        unfold step3b at h3b
        unfold step3bC
        split at h3b
        · simp at h3b
        · rename_i q hq
          rw [hq, bal_add]
          have h1 := sort_bal K hq
          have h2 := restrictInner_bal (o := o) q
          split at h3b
          · rename_i h4
            rw [if_pos h4]
            have := specialize_bal h3b
            omega
          · rename_i h4
            rw [if_neg h4]
            obtain rfl := Option.some.inj h3b
            simp; omega
      dsimp only
      split at h
      · simp at h
      · rename_i r4 h4
        rw [h4, bal_add]
        have g4 : (sizes r4 : Int) = sizes r3b + bal (step4C o fuel c genC L s fl.2 cst r3b) := by
          unfold step4 at h4
          unfold step4C
          split at h4
          · rename_i h1
            rw [if_pos h1]
            exact flatMapM_bal (fun l _ r h => loopRecurse_bal hg h) h4
          · rename_i h1
            rw [if_neg h1]
            exact flatMapM_bal (fun l _ r h => nestBelow_bal h) h4
        have g5 : (sizes r : Int) = sizes r4 + bal (step5C o fuel c L s fl.1 fl.2 r4) := by
          unfold step5 at h
          unfold step5C
          dsimp only at h ⊢
          have h0 : sizes (if c.opt.strides = true then propagate o r4 else r4) = sizes r4 := by
            split
            · exact propagate_size r4
            · rfl
          rw [← h0]
          generalize (if c.opt.strides = true then propagate o r4 else r4) = q at h ⊢
          split at h
          · rename_i h1
            rw [if_pos h1]
            exact flatMapM_bal (fun l _ r h => backtrackLoop_bal K h) h
          · rename_i h1
            rw [if_neg h1]
            obtain rfl := Option.some.inj h
            simp
        dsimp only
        omega

theorem components_bal (K : SortPerm o) {fuel : Nat} {c : Ctx} {gen : List (Loop D S) → D → Nat → Nat → Option (List (Loop D S))}
    {genC : List (Loop D S) → D → Nat → Nat → Cost} (hg : Bal gen genC) {L s : Nat} {ls r : List (Loop D S)}
    (h : generateComponents o fuel c gen L s ls = some r) :
    (sizes r : Int) = sizes ls + bal (generateComponentsC o fuel c gen genC L s ls) := by
  unfold generateComponents at h
  unfold generateComponentsC
  split at h
  · rename_i h1
    rw [if_pos h1]
    exact general_bal K hg h
  · rename_i h1
    rw [if_neg h1]
    split at h
    · simp at h
    · rename_i cs hc
      rw [hc]
      dsimp only
      rw [bal_add]
      split at h
      · simp at h
      · rename_i q hq
        rw [hq]
        obtain rfl := Option.some.inj h
        have h2 := flatMapM_bal' (fC := generateGeneralC o fuel c gen genC L s) (fun l _ r h => general_bal K hg h) hq
        have h3 := sizes_perm (Verif.Props.OneCopy.components_perm hc)
        have h4 := combine_bal (o := o) q
        dsimp only
        omega

theorem scalarGroup_sizes (c : Ctx) (L s sn : Nat) (l : Loop D S) (ls : List (Loop D S)) :
    sizes ls = sizes (scalarGroup o c L s sn l ls).1 + sizes (scalarGroup o c L s sn l ls).2 := by
  rw [← sizes_append]
  unfold scalarGroup
  rw [List.span_eq_takeWhile_dropWhile, List.takeWhile_append_dropWhile]

theorem scalarLoop_bal {c : Ctx} {gen : List (Loop D S) → Option (List (Loop D S))} {genC : List (Loop D S) → Cost}
    (hg : ∀ g r, gen g = some r → (sizes r : Int) = sizes g + bal (genC g)) (L s sn : Nat) :
    ∀ (n : Nat) (ls r : List (Loop D S)), scalarLoop o c gen L s sn n ls = some r →
      (sizes r : Int) = sizes ls + bal (scalarLoopC o c gen genC L s sn n ls)
  | 0, [], r, h => by rw [scalarLoop] at h; obtain rfl := Option.some.inj h; simp [scalarLoopC]
  | n + 1, [], r, h => by rw [scalarLoop] at h; obtain rfl := Option.some.inj h; simp [scalarLoopC]
  | 0, _ :: _, r, h => by simp [scalarLoop] at h
  | n + 1, l :: ls, r, h => by
    have h4 := scalarGroup_sizes (o := o) c L s sn l ls
    rw [scalarLoop] at h
    rw [scalarLoopC, bal_add]
    split at h
    · rename_i h1
      rw [if_pos h1]
      split at h
      · simp at h
      · rename_i q hq
        split at h
        · simp at h
        · rename_i rs hrs
          obtain rfl := Option.some.inj h
          have h2 := hg _ _ hq
          have h3 := scalarLoop_bal hg L s sn n _ _ hrs
          rw [sizes_append]
          rw [sizes_cons] at h2 ⊢
          push_cast at *
          omega
    · rename_i h1
      rw [if_neg h1]
      split at h
      · simp at h
      · rename_i hrs
        obtain rfl := Option.some.inj h
        have h3 := scalarLoop_bal hg L s sn n _ _ hrs
        rw [hrs]
        simp at h3 ⊢; omega
      · rename_i q rs hrs
        obtain rfl := Option.some.inj h
        have h3 := scalarLoop_bal hg L s sn n _ _ hrs
        rw [hrs]
        simp at h3 ⊢; omega

theorem restricted_bal (K : SortPerm o) (c : Ctx) : ∀ (fuel : Nat) (b : Bool),
    Bal (generateRestricted o c fuel b) (generateRestrictedC o c fuel b)
  | 0, b => by intro g d L s r h; simp [generateRestricted] at h
  | fuel + 1, b => by
    intro g d L s r h
    rw [generateRestricted] at h
    rw [generateRestrictedC]
    split at h
    · rename_i h1
      rw [if_pos h1]
      obtain rfl := Option.some.inj h
      rw [show stop g d = g.map (fun l => l.setDom d) from rfl, sizes_map (fun l => size_setDom l d)]
      simp
    · rename_i h1
      rw [if_neg h1]
      split at h
      · rename_i h2
        rw [if_pos h2]
        unfold generateScalar at h
        unfold generateScalarC
        dsimp only at h ⊢
        split at h
        · simp at h
        · rename_i q hq
          rw [hq]
          dsimp only
          have h3 := (Verif.Props.ScalarSort.bubble_spec _ _ _ _ hq).1
          rw [← sizes_perm h3]
          exact scalarLoop_bal (fun g r h => restricted_bal K c fuel false g d L _ r h) _ _ _ _ _ _ h
      · rename_i h2
        rw [if_neg h2, bal_add]
        have h3 := components_bal K (restricted_bal K c fuel true) h
        have h4 := projectAll_bal (o := o) g L
        rw [h3, h4]
        exact (add_assoc _ _ _)

theorem generate_bal (K : SortPerm o) {c : Ctx} {fuel : Nat} {ls t : List (Loop D S)} {ctx : D} {L s : Nat}
    (h : generate o c fuel ls ctx L s = some t) : (sizes t : Int) = sizes ls + bal (generateC o c fuel ls ctx L s) := by
  have h0 := restrictAll_bal (o := o) ls ctx
  unfold generate at h
  unfold generateC
  rw [bal_add]
  split at h
  · rename_i h1
    obtain rfl := Option.some.inj h
    rw [if_pos h1]
    rw [List.isEmpty_iff] at h1
    rw [h1] at h0
    simp at h0 ⊢; omega
  · rename_i h1
    rw [if_neg h1]
    have := restricted_bal K c fuel true _ _ _ _ _ h
    omega

theorem simplifyPrepare_bal {fuel : Nat} {ls r : List (Loop D S)} (h : simplifyPrepare o fuel ls = some r) :
    (sizes r : Int) = sizes ls + bal (simplifyPrepareC o fuel ls) := by
  unfold simplifyPrepare at h
  unfold simplifyPrepareC
  dsimp only at h ⊢
  have h0 : sizes (ls.map (fun l => if o.isConvex l.dom = true then l else l.setDom (o.simplifyUnion l.dom))) = sizes ls :=
    sizes_map (fun l => by split <;> simp) ls
  rw [← h0]
  split at h
  · rename_i h1
    obtain rfl := Option.some.inj h
    rw [if_pos h1]; simp
  · rename_i h1
    rw [if_neg h1]
    exact disjoint_bal h

theorem simplify_bal : ∀ (fuel : Nat) (ls : List (Loop D S)) (ctx : D) (r : List (Loop D S)), simplify o fuel ls ctx = some r →
    (sizes r : Int) = sizes ls + bal (simplifyC o fuel ls ctx)
  | 0, _, _, _, h => by simp [simplify] at h
  | fuel + 1, ls, ctx, r, h => by
    rw [simplify] at h
    rw [simplifyC]
    split at h
    · simp at h
    · rename_i ds hd
      rw [hd]
      dsimp only
      have h1 := simplifyPrepare_bal hd
      have h2 : ∀ ds r : List (Loop D S), flatMapM (fun l => (loopSimplify o (simplify o fuel) l ctx).map Option.toList) ds = some r →
          (sizes r : Int) = sizes ds - ds.length + bal (total (fun l => loopSimplifyC o (simplify o fuel) (simplifyC o fuel) l ctx) ds) := by
        intro ds
        induction ds with
        | nil =>
          intro r h
          simp only [flatMapM] at h
          obtain rfl := Option.some.inj h
          simp [total]
        | cons l ds ih =>
          intro r h
          simp only [flatMapM] at h
          split at h
          · simp at h
          · rename_i bs hb
            split at h
            · simp at h
            · rename_i cs hc
              obtain rfl := Option.some.inj h
              have h3 := ih _ hc
              have h4 : (sizes bs : Int) = sizes l.inner + bal (loopSimplifyC o (simplify o fuel) (simplifyC o fuel) l ctx) := by
                rw [Option.map_eq_some_iff] at hb
                obtain ⟨q, hq, rfl⟩ := hb
                unfold loopSimplify at hq
                unfold loopSimplifyC
                dsimp only at hq ⊢
                split at hq
                · rename_i h5
                  obtain rfl := Option.some.inj hq
                  rw [if_pos h5]; simp
                · rename_i h5
                  rw [if_neg h5]
                  split at hq
                  · simp at hq
                  · rename_i inner hi
                    have h6 := simplify_bal fuel _ _ _ hi
                    rw [hi, bal_add]
                    dsimp only
                    split at hq
                    · rename_i h7
                      rw [if_pos h7]
                      obtain rfl := Option.some.inj hq
                      obtain ⟨h8, _⟩ := h7
                      rw [List.isEmpty_iff] at h8
                      rw [h8] at h6
                      simp at h6 ⊢; omega
                    · rename_i h7
                      rw [if_neg h7]
                      obtain rfl := Option.some.inj hq
                      simp; omega
              have h5 := size_eq l
              rw [sizes_append, sizes_cons, total, bal_add, List.length_cons]
              push_cast
              omega
      have h3 := h2 ds r h
      simp
      omega

/-! ## Loops that are lost -/

@[simp] theorem lost_add (a b : Cost) : (a + b).lost = a.lost + b.lost := rfl
@[simp] theorem lost_idle : idle.lost = 0 := rfl
@[simp] theorem lost_alloc (n : Nat) : (alloc n).lost = 0 := rfl
@[simp] theorem lost_free (n : Nat) : (free n).lost = 0 := rfl

theorem lost_total {α : Type} {f : α → Cost} (h : ∀ a, (f a).lost = 0) (as : List α) : (total f as).lost = 0 := by
  induction as with
  | nil => rfl
  | cons a as ih => rw [total, lost_add, h, ih]

theorem lost_ite {c : Prop} [Decidable c] {a b : Cost} (ha : a.lost = 0) (hb : b.lost = 0) :
    (if c then a else b).lost = 0 := by split <;> assumption

theorem lost_splitRest {recC : Loop D S → Cost} (hr : ∀ l, (recC l).lost = 0) (b : Option Block) (inner : List (Loop D S)) :
    ∀ (fuel : Nat) (rest seen : D), (splitRestC o recC b inner fuel rest seen).lost = 0
  | 0, _, _ => rfl
  | fuel + 1, rest, seen => by
    rw [splitRestC]
    refine lost_ite rfl (lost_ite (lost_splitRest hr b inner fuel _ _) ?_)
    rw [lost_add, lost_add, lost_ite rfl (hr _), lost_ite rfl (lost_splitRest hr b inner fuel _ _)]
    rfl

theorem lost_addDisjoint : ∀ (fuel : Nat) (l : Loop D S), (addDisjointC o fuel l).lost = 0
  | 0, _ => rfl
  | fuel + 1, l => by
    rw [addDisjointC]
    refine lost_ite rfl ?_
    rw [lost_add, lost_add, lost_splitRest (lost_addDisjoint fuel)]
    rfl

theorem lost_disjoint (fuel : Nat) (ls : List (Loop D S)) : (disjointC o fuel ls).lost = 0 :=
  lost_total (lost_addDisjoint fuel) ls

theorem lost_restrict (l : Loop D S) (ctx : D) : (restrictC o l ctx).lost = 0 := lost_ite rfl rfl

theorem lost_restrictAll (ls : List (Loop D S)) (ctx : D) : (restrictAllC o ls ctx).lost = 0 :=
  lost_total (fun l => by rw [lost_add, lost_restrict, lost_ite rfl rfl]) ls

theorem lost_restrictInner (ls : List (Loop D S)) : (restrictInnerC o ls).lost = 0 :=
  lost_total (fun l => by rw [lost_add, lost_restrictAll, lost_ite rfl rfl]) ls

theorem lost_combineFrom : ∀ (ls : List (Loop D S)) (a : Loop D S), (combineFromC o a ls).lost = 0
  | [], _ => rfl
  | b :: ls, a => by
    rw [combineFromC]
    refine lost_ite ?_ (lost_combineFrom ls b)
    rw [lost_add, lost_combineFrom ls]
    rfl

theorem lost_combine (ls : List (Loop D S)) : (combineC o ls).lost = 0 := by
  cases ls with
  | nil => rfl
  | cons a ls => exact lost_combineFrom ls a

theorem lost_sepStep (fuel : Nat) (res : List (Loop D S)) (uq : D) (l : Loop D S) : (sepStepC o fuel res uq l).lost = 0 := by
  unfold sepStepC
  rw [lost_add, lost_add, lost_total (fun q => ?_)]
  · unfold sepRestC
    split <;> simp [lost_addDisjoint]
  · unfold sepInterC sepDiffC
    rw [lost_add]
    split <;> split <;> simp [lost_addDisjoint]

theorem lost_sepLoop (fuel : Nat) : ∀ (ls res : List (Loop D S)) (uq : D), (sepLoopC o fuel ls res uq).lost = 0
  | [], _, _ => rfl
  | l :: ls, res, uq => by
    rw [sepLoopC]
    split
    · rfl
    · rw [lost_add, lost_sepStep, lost_sepLoop fuel ls]

theorem lost_separate (fuel : Nat) (ls : List (Loop D S)) : (separateC o fuel ls).lost = 0 := by
  unfold separateC
  rw [lost_add, lost_combine]
  split
  · rfl
  · rw [lost_disjoint]
  · simp [lost_sepLoop]

theorem lost_mergeSplit (opt : Options) (temp : D) (inner : List (Loop D S)) : ∀ (fuel : Nat) (sp : D),
    (mergeSplitC o opt temp inner fuel sp).lost = 0
  | 0, _ => rfl
  | fuel + 1, sp => by
    rw [mergeSplitC]
    refine lost_ite (lost_ite rfl rfl) ?_
    rw [lost_add, lost_ite rfl rfl, lost_mergeSplit opt temp inner fuel]

theorem lost_merge (fuel level : Nat) (opt : Options) (ls : List (Loop D S)) : (mergeC o fuel level opt ls).lost = 0 := by
  cases ls with
  | nil => rfl
  | cons l ls =>
    rw [mergeC]
    refine lost_ite rfl ?_
    dsimp only
    rw [lost_add, lost_ite (lost_mergeSplit _ _ _ _ _) rfl]
    rfl

theorem lost_nest (fuel : Nat) (ls : List (Loop D S)) (ctx : D) (level : Nat) : (nestC o fuel ls ctx level).lost = 0 := by
  unfold nestC
  rw [lost_add, lost_disjoint]
  split
  · rfl
  · rw [lost_total fun l => ?_]
    unfold nestOneC
    rw [lost_add, lost_restrict]
    split <;> rfl

theorem lost_unrollOne (level : Nat) (l : Loop D S) : (unrollOneC o level l).lost = 0 := by
  unfold unrollOneC
  cases o.canUnroll l.dom level with
  | none => rfl
  | some nl =>
    dsimp only
    rw [lost_add, lost_total fun i => ?_]
    · rfl
    · rw [lost_add, lost_add, lost_restrictAll, lost_ite rfl rfl]
      rfl

theorem lost_specialize (level scalar : Nat) (scaldims : List Nat) (ls : List (Loop D S)) :
    (specializeC o level scalar scaldims ls).lost = 0 := by
  unfold specializeC
  rw [lost_add, lost_total fun l => ?_]
  · split
    · rfl
    · unfold removeEmptyC
      rw [lost_total fun l => lost_ite rfl rfl]
  · unfold decomposeOneC
    refine lost_ite rfl ?_
    split <;> rfl

theorem lost_total' {α : Type} {f : α → Cost} {as : List α} (h : ∀ a ∈ as, (f a).lost = 0) : (total f as).lost = 0 := by
  induction as with
  | nil => rfl
  | cons a as ih =>
    rw [total, lost_add, h a List.mem_cons_self, ih (fun a ha => h a (List.mem_cons_of_mem _ ha))]

/-- A loop with a block has no inner loops. -/
def Leaf (t : Loop D S) : Prop := t.block ≠ none → t.inner = []

/-- What is used of the loops given to the generation: they are statements, and this is not changed by restrictions. -/
structure Stmts (o : DomOps D S C) (P : Loop D S → Prop) : Prop where
  leaf : ∀ i, P i → i.inner = []
  restrict : ∀ i ctx p, P i → restrict o i ctx = some p → P p

/-- A terminal loop is never followed by one that is not, in a group of `cloog_loop_generate_scalar`. -/
def Grouped (o : DomOps D S C) (c : Ctx) (P : Loop D S → Prop) : Prop :=
  ∀ L s l m, ScalarSort.levelIsConstant L s (isScal c.scaldims) = true → P l → P m →
    more o l L (s + runLength c.scaldims (L + s - 1)) c.scaldims.length = false →
    more o m L (s + runLength c.scaldims (L + s - 1)) c.scaldims.length = false

/-- All statements have the same depth. -/
theorem grouped_depth {c : Ctx} {P : Loop D S → Prop} {n : Nat} (h : ∀ l, P l → o.dim l.dom = n) : Grouped o c P := by
  intro L s l m _ hl hm hml
  unfold more at hml ⊢
  rw [h m hm]
  rw [h l hl] at hml
  exact hml

/-- The last dimension of the scattering is not a scalar. -/
theorem grouped_last {c : Ctx} {P : Loop D S → Prop}
    (hk : ∀ i n, c.scaldims[i]? = some n → n ≠ 0 → i + n < c.scaldims.length) : Grouped o c P := by
  intro L s l m hc _ _ hml
  exfalso
  unfold ScalarSort.levelIsConstant at hc
  simp only [Bool.and_eq_true, decide_eq_true_eq, isScal, List.length_map] at hc
  obtain ⟨⟨h0, h1⟩, h2⟩ := hc
  have hlt : L + s - 1 < c.scaldims.length := by omega
  have h3 : c.scaldims[L + s - 1]? = some c.scaldims[L + s - 1] := List.getElem?_eq_getElem hlt
  have h4 : c.scaldims[L + s - 1] ≠ 0 := by
    rw [List.getD_eq_getElem?_getD, List.getElem?_map, h3] at h2
    simpa using h2
  have h5 := hk _ _ h3 h4
  unfold more runLength at hml
  rw [List.getD_eq_getElem?_getD, h3] at hml
  simp at hml
  omega

/-- What is used for the loops that are not lost. -/
structure Plain (o : DomOps D S C) (c : Ctx) (P : Loop D S → Prop) : Prop extends Stmts o P where
  scal : Grouped o c P

section
variable {c : Ctx} {P : Loop D S → Prop}

theorem restrictAll_P (H : Stmts o P) {ls : List (Loop D S)} (h : ∀ i ∈ ls, P i) (ctx : D) : ∀ i ∈ restrictAll o ls ctx, P i := by
  intro i hi
  obtain ⟨l, hl, hi⟩ := List.mem_filterMap.1 hi
  exact H.restrict l ctx i (h l hl) hi

theorem restrictInner_P (H : Stmts o P) {ls : List (Loop D S)} (h : ∀ l ∈ ls, Body P l) : ∀ q ∈ restrictInner o ls, Body P q := by
  intro q hq
  obtain ⟨l, hl, hq⟩ := List.mem_filterMap.1 hq
  obtain ⟨_, hq⟩ := Option.ite_none_left_eq_some.1 hq
  obtain rfl := Option.some.inj hq
  have := h l hl
  cases l
  exact ⟨this.1, restrictAll_P H this.2 _⟩

theorem specialize_P {L s : Nat} {scal : List Nat} {ls r : List (Loop D S)} (h1 : ∀ l ∈ ls, Body P l)
    (h : specialize o L s scal ls = some r) : ∀ q ∈ r, Body P q := by
  unfold specialize at h
  split at h
  · exact absurd h (by simp)
  · rename_i ds hds
    obtain rfl := Option.some.inj h
    have hd : ∀ q ∈ ds, Body P q := by
      intro q hq
      obtain ⟨a, ha, bs, hbs, hqb⟩ := flatMapM_mem hds hq
      unfold decomposeOne at hbs
      split at hbs
      · obtain rfl := Option.some.inj hbs
        rw [List.mem_singleton] at hqb
        exact hqb ▸ h1 a ha
      · split at hbs
        · exact absurd hbs (by simp)
        · rename_i cs hcs
          obtain rfl := Option.some.inj hbs
          obtain ⟨k, hk, rfl⟩ := List.mem_map.1 hqb
          have hk := ((componentsOf_spec (α := Unit) hcs).1 k hk).subset
          exact ⟨(h1 a ha).1, fun i hi => (h1 a ha).2 i (hk hi)⟩
    intro q hq
    obtain ⟨l, hl, rfl⟩ := List.mem_map.1 (List.mem_filter.1 hq).1
    have := hd l hl
    unfold specializeOne
    split
    · split
      · cases l
        exact this
      · exact this
    · exact this

theorem step3b_P (H : Stmts o P) {L s : Nat} {sep : Bool} {ls r : List (Loop D S)} (h1 : ∀ l ∈ ls, Body P l)
    (h : step3b o c L s sep ls = some r) : ∀ q ∈ r, Body P q := by
  unfold step3b at h
  split at h
  · exact absurd h (by simp)
  · rename_i a ha
    have h2 := restrictInner_P H (fun l hl => h1 l (sort_mem ha l hl))
    split at h
    · exact specialize_P h2 h
    · obtain rfl := Option.some.inj h
      exact h2

theorem prepare_P (H : Stmts o P) {k : Bool} {L s : Nat} {a : Loop D S} (ha : Body P a) {b : Loop D S ⊕ List (Loop D S)}
    (hb : recursePrepare o c k L s a = some b) :
    b.elim (Body P) (fun ms => ∀ m ∈ ms, Body P m) := by
  unfold recursePrepare at hb
  dsimp only at hb
  have hin : Body P (if 0 < L ∧ c.opt.strides = true ∧ k = false then loopStride o L a else a) := by
    split
    · have e : (loopStride o L a).block = a.block := by
        obtain ⟨d, ot, st, b, inner⟩ := a
        rw [loopStride]
        split
        · rfl
        · split
          · rfl
          · split <;> rfl
      refine ⟨e.trans ha.1, ?_⟩
      rw [Verif.Props.LastLevel.loopStride_inner]
      exact ha.2
    · exact ha
  generalize (if 0 < L ∧ c.opt.strides = true ∧ k = false then loopStride o L a else a) = a' at hb hin
  have hu : ∀ m ∈ unrollOne o L a', Body P m := by
    intro m hm
    unfold unrollOne at hm
    split at hm
    · rw [List.mem_singleton] at hm
      exact hm ▸ hin
    · obtain ⟨i, _, hi⟩ := List.mem_filterMap.1 hm
      dsimp only at hi
      obtain ⟨_, hi⟩ := Option.ite_none_left_eq_some.1 hi
      obtain rfl := Option.some.inj hi
      exact ⟨rfl, restrictAll_P H hin.2 _⟩
  split at hb
  · generalize unrollOne o L a' = us at hb hu
    match us, hb, hu with
    | [], hb, _ => simp [unrolled] at hb
    | [m], hb, hu =>
      obtain rfl := Option.some.inj hb
      exact hu _ (by simp)
    | m :: n :: ms, hb, hu =>
      obtain rfl := Option.some.inj hb
      exact hu
  · obtain rfl := Option.some.inj hb
    exact hin

/-- The recursive call loses nothing, and its result has no inner loops in loops with blocks. -/
def Fine (P : Loop D S → Prop) (gen : List (Loop D S) → Option (List (Loop D S))) (genC : List (Loop D S) → Cost) : Prop :=
  ∀ g, (∀ i ∈ g, P i) → (genC g).lost = 0 ∧ ∀ r, gen g = some r → ∀ t ∈ r, Leaf t

theorem recurseInner_fine (H : Plain o c P) {gen : List (Loop D S) → Option (List (Loop D S))} {genC : List (Loop D S) → Cost}
    (hg : Fine P gen genC) (L s nb : Nat) : ∀ (n : Nat) (ls : List (Loop D S)), (∀ i ∈ ls, P i) →
    (recurseInnerC o genC L s nb n ls).lost = 0 ∧ ∀ r, recurseInner o gen L s nb n ls = some r → ∀ t ∈ r, Leaf t
  | 0, [], _ => ⟨rfl, fun r h => by rw [recurseInner] at h; obtain rfl := Option.some.inj h; simp⟩
  | n + 1, [], _ => ⟨rfl, fun r h => by rw [recurseInner] at h; obtain rfl := Option.some.inj h; simp⟩
  | 0, _ :: _, _ => ⟨rfl, fun r h => by simp [recurseInner] at h⟩
  | n + 1, l :: ls, hls => by
    have hsp : (spanMore o L s nb (l :: ls)).1 ++ (spanMore o L s nb (l :: ls)).2 = l :: ls := by
      simp [spanMore, List.span_eq_takeWhile_dropWhile]
    have g1 := hg _ (fun i hi => hls i (by rw [← hsp]; exact List.mem_append_left _ hi))
    have g2 := recurseInner_fine H hg L s nb n _ (fun i hi => hls i (by rw [← hsp]; exact List.mem_append_right _ hi))
    have g3 := recurseInner_fine H hg L s nb n ls (fun i hi => hls i (List.mem_cons_of_mem _ hi))
    rw [recurseInnerC, recurseInner]
    refine ⟨lost_ite (by rw [lost_add, g1.1, g2.1]) g3.1, fun r h => ?_⟩
    split at h
    · split at h
      · simp at h
      · rename_i q hq
        split at h
        · simp at h
        · rename_i rs hrs
          obtain rfl := Option.some.inj h
          intro t ht
          rcases List.mem_append.1 ht with ht | ht
          · exact g1.2 _ hq t ht
          · exact g2.2 _ hrs t ht
    · split at h
      · simp at h
      · rename_i rs hrs
        obtain rfl := Option.some.inj h
        intro t ht
        rcases List.mem_cons.1 ht with rfl | ht
        · exact fun _ => H.leaf _ (hls _ List.mem_cons_self)
        · exact g3.2 _ hrs t ht

theorem recurseBelow_fine (H : Plain o c P) {gen : List (Loop D S) → D → Nat → Nat → Option (List (Loop D S))}
    {genC : List (Loop D S) → D → Nat → Nat → Cost} {L s : Nat}
    (hg : ∀ d, Fine P (fun g => gen g d (L + 1) s) (fun g => genC g d (L + 1) s)) {m : Loop D S} (hm : Body P m) :
    (recurseBelowC o c genC L s m).lost = 0 ∧ ∀ r, loopRecurseConst o c gen L s m = some r → ∀ t ∈ r, Body Leaf t := by
  have hm' : Body P (if 0 < L ∧ c.opt.otl = true then loopOtl o L m else m) := by
    split
    · cases m; exact hm
    · exact hm
  unfold recurseBelowC loopRecurseConst recurseBelow
  dsimp only
  generalize (if 0 < L ∧ c.opt.otl = true then loopOtl o L m else m) = q at hm' ⊢
  have h1 := fun d => recurseInner_fine H (hg d) (L + 1) s c.scaldims.length q.inner.length q.inner hm'.2
  refine ⟨(h1 _).1, fun r h => ?_⟩
  split at h
  · simp at h
  · rename_i into hi
    obtain rfl := Option.some.inj h
    intro t ht
    rw [List.mem_singleton] at ht
    subst ht
    refine ⟨?_, ?_⟩
    · cases q; exact hm'.1
    · cases q; exact (h1 _).2 _ hi

theorem loopRecurse_fine (H : Plain o c P) {gen : List (Loop D S) → D → Nat → Nat → Option (List (Loop D S))}
    {genC : List (Loop D S) → D → Nat → Nat → Cost} {L s : Nat}
    (hg : ∀ d, Fine P (fun g => gen g d (L + 1) s) (fun g => genC g d (L + 1) s)) {k : Bool} {l : Loop D S} (hl : Body P l) :
    (loopRecurseC o c genC k L s l).lost = 0 ∧ ∀ r, loopRecurse o c gen k L s l = some r → ∀ t ∈ r, Body Leaf t := by
  have hp := fun b => prepare_P (c := c) (b := b) (k := k) (L := L) (s := s) H.toStmts hl
  constructor
  · unfold loopRecurseC
    rw [lost_add]
    have : (recursePrepareC o c k L s l).lost = 0 := lost_ite (lost_unrollOne _ _) rfl
    rw [this]
    split
    · rfl
    · rename_i m hm
      rw [(recurseBelow_fine H hg (hp _ hm)).1]
    · rename_i ms hm
      rw [lost_total' fun m h => (recurseBelow_fine H hg (hp _ hm m h)).1]
  · intro r h
    unfold loopRecurse at h
    split at h
    · simp at h
    · rename_i m hm
      exact (recurseBelow_fine H hg (hp _ hm)).2 r h
    · rename_i ms hm
      intro t ht
      obtain ⟨m, hmm, bs, hbs, htb⟩ := flatMapM_mem h ht
      exact (recurseBelow_fine H hg (hp _ hm m hmm)).2 bs hbs t htb

theorem lost_backtrackLoop {fuel L : Nat} {l : Loop D S} (hl : Body Leaf l) : (backtrackLoopC o fuel L l).lost = 0 := by
  unfold backtrackLoopC
  rw [lost_add, lost_add, lost_ite rfl (lost_separate _ _), lost_total' fun i hi => ?_]
  · rfl
  · unfold backtrackOneC
    cases hb : i.block with
    | none => rfl
    | some b =>
      dsimp only
      rw [hl.2 i hi (by rw [hb]; simp)]
      rfl

theorem backtrackLoop_block {fuel L : Nat} {l : Loop D S} {r : List (Loop D S)} (h : backtrackLoop o fuel L l = some r) :
    ∀ t ∈ r, t.block = none := by
  unfold backtrackLoop at h
  split at h
  · obtain rfl := Option.some.inj h
    simp
  · split at h
    · simp at h
    · rename_i sp hsp
      intro t ht
      refine (separate_body (P := fun _ => True) ?_ hsp t (sort_mem h t ht)).1
      intro m hm
      obtain ⟨i, hi, rfl⟩ := List.mem_map.1 hm
      unfold backtrackOne
      split
      · exact ⟨rfl, fun _ _ => trivial⟩
      · exact ⟨rfl, fun _ _ => trivial⟩

theorem general_fine (H : Plain o c P) {fuel : Nat} {gen : List (Loop D S) → D → Nat → Nat → Option (List (Loop D S))}
    {genC : List (Loop D S) → D → Nat → Nat → Cost} {L s : Nat}
    (hg : ∀ d, Fine P (fun g => gen g d (L + 1) s) (fun g => genC g d (L + 1) s)) {ls : List (Loop D S)} (hls : ∀ l ∈ ls, Body P l) :
    (generateGeneralC o fuel c gen genC L s ls).lost = 0 ∧
    ∀ r, generateGeneral o fuel c gen L s ls = some r → ∀ t ∈ r, t.block = none := by
  have h3 : ∀ f ls, (step3C o fuel c L s f ls).lost = 0 := by
    intro f ls
    unfold step3C
    refine lost_ite ?_ (lost_ite (lost_merge _ _ _ _) (lost_separate _ _))
    cases ls <;> rfl
  have h3b : ∀ sep ls, (step3bC o c L s sep ls).lost = 0 := by
    intro sep ls
    unfold step3bC
    split
    · rfl
    · rw [lost_add, lost_restrictInner, lost_ite (lost_specialize _ _ _ _) rfl]
  have h4 : ∀ f k ls, (∀ l ∈ ls, Body P l) → (step4C o fuel c genC L s f k ls).lost = 0 := by
    intro f k ls hl
    unfold step4C
    refine lost_ite (lost_total' fun l h => (loopRecurse_fine H hg (hl l h)).1) (lost_total (fun l => ?_) ls)
    unfold nestBelowC
    rw [lost_add, lost_add, lost_nest]
    rfl
  have h4o : ∀ f k ls r, (∀ l ∈ ls, Body P l) → step4 o fuel c gen L s f k ls = some r →
      (∀ t ∈ r, t.block = none) ∧ ((L = 0 ∨ (L + s : Int) < f ∨ f < 0) → ∀ t ∈ r, Body Leaf t) := by
    intro f k ls r hl h
    unfold step4 at h
    split at h
    · have : ∀ t ∈ r, Body Leaf t := by
        intro t ht
        obtain ⟨m, hmm, bs, hbs, htb⟩ := flatMapM_mem h ht
        exact (loopRecurse_fine H hg (hl m hmm)).2 bs hbs t htb
      exact ⟨fun t ht => (this t ht).1, fun _ => this⟩
    · rename_i hn
      refine ⟨fun t ht => ?_, fun h => absurd h hn⟩
      obtain ⟨m, hmm, bs, hbs, htb⟩ := flatMapM_mem h ht
      unfold nestBelow at hbs
      split at hbs
      · simp at hbs
      · obtain rfl := Option.some.inj hbs
        rw [List.mem_singleton] at htb
        rw [htb]; rfl
  have hprop : ∀ r : List (Loop D S), ∀ t ∈ (if c.opt.strides = true then propagate o r else r),
      ∃ q ∈ r, t.block = q.block ∧ t.inner = q.inner := by
    intro r t ht
    split at ht
    · obtain ⟨q, hq, rfl⟩ := List.mem_map.1 ht
      refine ⟨q, hq, ?_⟩
      unfold propagateOne
      split
      · split
        · exact ⟨rfl, rfl⟩
        · exact ⟨rfl, rfl⟩
      · exact ⟨rfl, rfl⟩
    · exact ⟨t, ht, rfl, rfl⟩
  have h5 : ∀ f l ls, ((L = 0 ∨ (L + s : Int) < l ∨ l < 0) → ∀ t ∈ ls, Body Leaf t) → (step5C o fuel c L s f l ls).lost = 0 := by
    intro f l ls hl
    unfold step5C
    dsimp only
    split
    · rename_i hc
      refine lost_total' fun t ht => lost_backtrackLoop ?_
      obtain ⟨q, hq, e1, e2⟩ := hprop ls t ht
      have := hl (Or.inr hc.2.2.1) q hq
      exact ⟨e1.trans this.1, by rw [e2]; exact this.2⟩
    · rfl
  have h5o : ∀ f l ls r, (∀ t ∈ ls, t.block = none) → step5 o fuel c L s f l ls = some r → ∀ t ∈ r, t.block = none := by
    intro f l ls r hl h
    unfold step5 at h
    dsimp only at h
    split at h
    · intro t ht
      obtain ⟨m, hmm, bs, hbs, htb⟩ := flatMapM_mem h ht
      exact backtrackLoop_block hbs t htb
    · obtain rfl := Option.some.inj h
      intro t ht
      obtain ⟨q, hq, e1, _⟩ := hprop ls t ht
      exact e1.trans (hl q hq)
  constructor
  · unfold generateGeneralC
    dsimp only
    rw [lost_add, h3]
    split
    · rfl
    · rename_i r3 sep k e3
      have b3 := step3_body (P := P) hls e3
      rw [lost_add, h3b]
      split
      · rfl
      · rename_i r3b e3b
        have b3b := step3b_P H.toStmts b3 e3b
        rw [lost_add, h4 _ _ _ b3b]
        split
        · rfl
        · rename_i r4 e4
          rw [h5 _ _ _ (h4o _ _ _ _ b3b e4).2]
  · intro r h
    unfold generateGeneral at h
    dsimp only at h
    split at h
    · simp at h
    · rename_i r3 sep k e3
      have b3 := step3_body (P := P) hls e3
      split at h
      · simp at h
      · rename_i r3b e3b
        have b3b := step3b_P H.toStmts b3 e3b
        split at h
        · simp at h
        · rename_i r4 e4
          exact h5o _ _ _ _ (h4o _ _ _ _ b3b e4).1 h

theorem components_fine (H : Plain o c P) {fuel : Nat} {gen : List (Loop D S) → D → Nat → Nat → Option (List (Loop D S))}
    {genC : List (Loop D S) → D → Nat → Nat → Cost} {L s : Nat}
    (hg : ∀ d, Fine P (fun g => gen g d (L + 1) s) (fun g => genC g d (L + 1) s)) {ls : List (Loop D S)} (hls : ∀ l ∈ ls, Body P l) :
    (generateComponentsC o fuel c gen genC L s ls).lost = 0 ∧
    ∀ r, generateComponents o fuel c gen L s ls = some r → ∀ t ∈ r, t.block = none := by
  have h0 := general_fine (fuel := fuel) H hg hls
  have hcs : ∀ cs, componentsOf (fun a b => innerFollows o a b L s c.scaldims) ls = some cs → ∀ k ∈ cs, ∀ l ∈ k, Body P l := by
    intro cs h k hk l hl
    exact hls l (((componentsOf_spec (α := Unit) h).1 k hk).subset hl)
  constructor
  · unfold generateComponentsC
    refine lost_ite h0.1 ?_
    split
    · rfl
    · rename_i cs hc
      rw [lost_add, lost_total' fun k hk => (general_fine (fuel := fuel) H hg (hcs cs hc k hk)).1]
      split
      · rfl
      · rw [lost_combine]
  · intro r h
    unfold generateComponents at h
    split at h
    · exact h0.2 r h
    · split at h
      · simp at h
      · rename_i cs hc
        split at h
        · simp at h
        · rename_i q hq
          obtain rfl := Option.some.inj h
          intro t ht
          refine (combine_body (o := o) (P := fun _ => True) (fun l hl => ?_) t ht).1
          obtain ⟨k, hk, bs, hbs, htb⟩ := flatMapM_mem hq hl
          exact ⟨(general_fine H hg (hcs cs hc k hk)).2 bs hbs l htb, fun _ _ => trivial⟩

theorem scalarLoop_fine (H : Plain o c P) {L s sn : Nat}
    (hs : ∀ l m, P l → P m → more o l L sn c.scaldims.length = false → more o m L sn c.scaldims.length = false)
    {gen : List (Loop D S) → Option (List (Loop D S))} {genC : List (Loop D S) → Cost} (hg : Fine P gen genC) :
    ∀ (n : Nat) (ls : List (Loop D S)), (∀ i ∈ ls, P i) →
    (scalarLoopC o c gen genC L s sn n ls).lost = 0 ∧ ∀ r, scalarLoop o c gen L s sn n ls = some r → ∀ t ∈ r, Leaf t
  | 0, [], _ => ⟨rfl, fun r h => by rw [scalarLoop] at h; obtain rfl := Option.some.inj h; simp⟩
  | n + 1, [], _ => ⟨rfl, fun r h => by rw [scalarLoop] at h; obtain rfl := Option.some.inj h; simp⟩
  | 0, _ :: _, _ => ⟨rfl, fun r h => by simp [scalarLoop] at h⟩
  | n + 1, l :: ls, hls => by
    obtain ⟨g1, g2, _⟩ := Verif.Gen.span_group o c L s sn l ls
    have hA : ∀ i ∈ (scalarGroup o c L s sn l ls).1, P i := fun i hi =>
      hls i (List.mem_cons_of_mem _ (by rw [← g1]; exact List.mem_append_left _ hi))
    have hR : ∀ i ∈ (scalarGroup o c L s sn l ls).2, P i := fun i hi =>
      hls i (List.mem_cons_of_mem _ (by rw [← g1]; exact List.mem_append_right _ hi))
    have hl := hls l List.mem_cons_self
    have k1 := hg (l :: (scalarGroup o c L s sn l ls).1) (by
      intro i hi
      rcases List.mem_cons.1 hi with rfl | hi
      · exact hl
      · exact hA i hi)
    have k2 := scalarLoop_fine (s := s) H hs hg n _ hR
    have hE : more o l L sn c.scaldims.length = false → (scalarGroup o c L s sn l ls).1 = [] := by
      intro hm
      rw [List.eq_nil_iff_forall_not_mem]
      intro m hmm
      have := hs l m hl (hA m hmm) hm
      rw [(g2 m hmm).1] at this
      exact absurd this (by simp)
    rw [scalarLoopC, scalarLoop]
    constructor
    · rw [lost_add, k2.1]
      split
      · rw [k1.1]
      · rename_i hm
        rw [hE (by simpa using hm)]
        split <;> rfl
    · intro r h
      split at h
      · split at h
        · simp at h
        · rename_i q hq
          split at h
          · simp at h
          · rename_i rs hrs
            obtain rfl := Option.some.inj h
            intro t ht
            rcases List.mem_append.1 ht with ht | ht
            · exact k1.2 _ hq t ht
            · exact k2.2 _ hrs t ht
      · rename_i hm
        rw [hE (by simpa using hm)] at h
        split at h
        · simp at h
        · obtain rfl := Option.some.inj h
          intro t ht
          rw [List.mem_singleton] at ht
          exact fun _ => ht ▸ H.leaf _ hl
        · rename_i q rs hrs
          obtain rfl := Option.some.inj h
          intro t ht
          rcases List.mem_cons.1 ht with rfl | ht
          · exact fun _ => H.leaf _ hl
          · exact k2.2 _ hrs t ht

theorem restricted_fine (H : Plain o c P) : ∀ (fuel : Nat) (b : Bool) (d : D) (L s : Nat),
    Fine P (fun g => generateRestricted o c fuel b g d L s) (fun g => generateRestrictedC o c fuel b g d L s)
  | 0, b, d, L, s => by
    intro g _
    exact ⟨rfl, fun r h => by simp [generateRestricted] at h⟩
  | fuel + 1, b, d, L, s => by
    intro g hP
    dsimp only
    rw [generateRestrictedC, generateRestricted]
    by_cases h1 : b = true ∧ 0 ≤ c.opt.stop ∧ c.opt.stop + 1 ≤ L + s
    · rw [if_pos h1, if_pos h1]
      refine ⟨rfl, fun r h => ?_⟩
      obtain rfl := Option.some.inj h
      intro t ht
      obtain ⟨l, hl, rfl⟩ := List.mem_map.1 ht
      exact fun _ => H.leaf l (hP l hl)
    · rw [if_neg h1, if_neg h1]
      by_cases h2 : ScalarSort.levelIsConstant L s (isScal c.scaldims) = true
      · rw [if_pos h2, if_pos h2]
        unfold generateScalar generateScalarC
        dsimp only
        have hb := fun q => Verif.Props.ScalarSort.bubble_spec (fun a b : Loop D S =>
          ScalarSort.scalarGt o.icmp L (isScal c.scaldims) s (scalOf a) (scalOf b)) (g.length * g.length + 1) g q
        cases hq : ScalarSort.bubble (fun a b : Loop D S =>
          ScalarSort.scalarGt o.icmp L (isScal c.scaldims) s (scalOf a) (scalOf b)) (g.length * g.length + 1) g with
        | none => exact ⟨rfl, fun r h => by simp at h⟩
        | some q =>
          exact scalarLoop_fine H (fun l m hl hm => H.scal L s l m h2 hl hm)
            (restricted_fine H fuel false d L (s + runLength c.scaldims (L + s - 1))) _ q
            (fun i hi => hP i ((hb q hq).1.subset hi))
      · rw [if_neg h2, if_neg h2]
        have := components_fine (fuel := fuel) H (fun d => restricted_fine H fuel true d (L + 1) s)
          (ls := projectAll o g L) (fun l hl => by
            obtain ⟨i, hi, rfl⟩ := List.mem_map.1 hl
            refine ⟨rfl, fun j hj => ?_⟩
            rw [project, Loop.inner, List.mem_singleton] at hj
            rw [hj]
            exact hP i hi)
        constructor
        · rw [lost_add, this.1]
          have : (projectAllC g).lost = 0 := lost_total (fun _ => rfl) g
          rw [this]
        · intro r h t ht hb
          exact absurd (this.2 r h t ht) hb

theorem lost_generate (H : Plain o c P) {fuel : Nat} {ls : List (Loop D S)} (hls : ∀ i ∈ ls, P i) (ctx : D) (L s : Nat) :
    (generateC o c fuel ls ctx L s).lost = 0 := by
  unfold generateC
  rw [lost_add, lost_restrictAll, lost_ite rfl (restricted_fine H fuel true ctx L s _ (restrictAll_P H.toStmts hls ctx)).1]

end

theorem lost_simplify : ∀ (fuel : Nat) (ls : List (Loop D S)) (ctx : D), (simplifyC o fuel ls ctx).lost = 0
  | 0, _, _ => rfl
  | fuel + 1, ls, ctx => by
    rw [simplifyC, lost_add]
    have : (simplifyPrepareC o fuel ls).lost = 0 := lost_ite rfl (lost_disjoint _ _)
    rw [this]
    split
    · rfl
    · rw [lost_add, lost_total fun l => ?_]
      · rfl
      · unfold loopSimplifyC
        dsimp only
        refine lost_ite rfl ?_
        rw [lost_add, lost_simplify fuel]
        split
        · rfl
        · rw [lost_ite rfl rfl]

/-! ## The statistics at the end -/

/-- **C83**, the balance: whatever the options, the difference of the numbers of allocated and freed loops at the end of
`main` is the number of loops that were lost on the way. -/
theorem C83_balance (K : SortPerm o) {c : Ctx} {simp : Bool} {fuel : Nat} {ls t : List (Loop D S)} {ctx : D}
    (h : generate o c fuel ls ctx 0 0 = some t) (hs : simp = true → (simplify o fuel t ctx).isSome = true) :
    (sizes ls : Int) + (programC o c simp fuel ls ctx).net = (programC o c simp fuel ls ctx).lost := by
  have h1 := generate_bal K h
  suffices hb : (sizes ls : Int) + bal (programC o c simp fuel ls ctx) = 0 by
    unfold bal at hb; omega
  unfold programC
  rw [bal_add, h]
  dsimp only
  cases simp with
  | false => simp; omega
  | true =>
    obtain ⟨t', h'⟩ := Option.isSome_iff_exists.1 (hs rfl)
    have h2 := simplify_bal _ _ _ _ h'
    rw [h']
    simp; omega

/-- **C83**, when nothing is lost (part of the claim): all statements have the same depth, or the last dimension of the
scattering is not a scalar. Then as many loops are freed as were allocated, with all other options. -/
theorem C83_freed_partial (K : SortPerm o) (hd : ∀ (l : Loop D S) ctx p, restrict o l ctx = some p → o.dim p.dom = o.dim l.dom)
    {c : Ctx} {simp : Bool} {fuel : Nat} {ls t : List (Loop D S)} {ctx : D} (hin : ∀ l ∈ ls, l.inner = [])
    (hk : (∃ n, ∀ l ∈ ls, o.dim l.dom = n) ∨ (∀ i n, c.scaldims[i]? = some n → n ≠ 0 → i + n < c.scaldims.length))
    (h : generate o c fuel ls ctx 0 0 = some t) (hs : simp = true → (simplify o fuel t ctx).isSome = true) :
    (sizes ls : Int) + (programC o c simp fuel ls ctx).net = 0 := by
  rw [C83_balance K h hs]
  suffices hl : (generateC o c fuel ls ctx 0 0).lost = 0 by
    unfold programC
    rw [lost_add, hl, h]
    dsimp only
    cases simp with
    | false => simp
    | true =>
      obtain ⟨t', h'⟩ := Option.isSome_iff_exists.1 (hs rfl)
      rw [h']
      simp [lost_simplify]
  rcases hk with ⟨n, hn⟩ | hk
  · refine lost_generate (P := fun l => l.inner = [] ∧ o.dim l.dom = n) ⟨⟨fun i h => h.1, ?_⟩, ?_⟩ (fun l hl => ⟨hin l hl, hn l hl⟩) _ _ _
    · intro i ctx p hi hp
      exact ⟨(restrict_flat hp).1.trans hi.1, (hd i ctx p hp).trans hi.2⟩
    · exact grouped_depth (fun l h => h.2)
  · refine lost_generate (P := fun l => l.inner = []) ⟨⟨fun i h => h, ?_⟩, ?_⟩ hin _ _ _
    · intro i ctx p hi hp
      exact (restrict_flat hp).1.trans hi
    · exact grouped_last hk

/-! ## Examples -/

section Examples
open Verif.BoxDom Verif.Props.Generate

theorem ops_sort : SortPerm ops := by
  intro ds L perm h0 h
  exact (laws.sort ds L perm h0 h).1

/-- The number of allocations minus the number of loops freed at the end, and the loops lost. -/
def atEnd (c : Ctx) (simp : Bool) (ls : List (Loop BD (Int × Int))) : Int × Nat :=
  (sizes ls + (programC ops c simp 20 ls (box 0 [[]])).net, (programC ops c simp 20 ls (box 0 [[]])).lost)

/-- The two statements of `exB'`, separated with `-backtrack`: a tree is generated and simplified, and all loops are freed. -/
example : ((generate ops exC' 20 exB' (box 0 [[]]) 0 0).bind (fun t => simplify ops 20 t (box 0 [[]]))).isSome = true ∧
    atEnd exC' true exB' = (0, 0) := by decide +kernel

/-- In between, not counting the two loops of the statements, there are more loops than that. -/
example : (generateC ops exC' 20 exB' (box 0 [[]]) 0 0).net = 4 := by decide +kernel

/-- The operations of `BoxDom`, with an intersection that never has more dimensions than its second argument. -/
def ops' : DomOps BD (Int × Int) Unit :=
  { ops with inter := fun a b => if a.dim ≤ b.dim then ops.inter a b else b }

theorem ops'_restrict (l : Loop BD (Int × Int)) (ctx : BD) (p : Loop BD (Int × Int)) (h : restrict ops' l ctx = some p) :
    ops'.dim p.dom = ops'.dim l.dom := by
  unfold restrict at h
  obtain rfl := some_of_ite h
  have key : ∀ a b : BD, ops'.dim (ops'.inter a b) = ops'.dim b := by
    intro a b
    change (if a.dim ≤ b.dim then ops.inter a b else b).dim = b.dim
    split
    · change (BD.lift _ _).dim = b.dim
      rw [dim_lift]
      omega
    · rfl
  rw [Loop.dom_mk]
  split <;> exact key _ _

/-- The hypotheses of `C83_freed_partial` hold for the two statements of `exB'`. -/
example : (sizes exB' : Int) + (programC ops' exC' true 20 exB' (box 0 [[]])).net = 0 := by
  have h0 : ((generate ops' exC' 20 exB' (box 0 [[]]) 0 0).bind (fun t => simplify ops' 20 t (box 0 [[]]))).isSome = true := by
    decide +kernel
  obtain ⟨t', ht'⟩ := Option.isSome_iff_exists.1 h0
  obtain ⟨t, ht, hs⟩ := Option.bind_eq_some_iff.1 ht'
  refine C83_freed_partial (o := ops') (t := t) ops_sort ops'_restrict ?_ (Or.inl ⟨2, ?_⟩) ht (fun _ => by rw [hs]; rfl)
  · intro l hl
    simp only [exB', List.mem_cons, List.not_mem_nil, or_false] at hl
    rcases hl with rfl | rfl <;> rfl
  · intro l hl
    simp only [exB', List.mem_cons, List.not_mem_nil, or_false] at hl
    rcases hl with rfl | rfl <;> rfl

/-- **C83 is false** in general: with the statements of `C24_scalar_drops` a loop is lost by `cloog_loop_generate_scalar`, at
the end one loop is not freed, and `main` reports an internal problem. -/
theorem C83_leak : (generate ops dropC 20 dropB (box 0 [[]]) 0 0).isSome = true ∧
    (programC ops dropC false 20 dropB (box 0 [[]])).lost = 1 ∧
    (sizes dropB : Int) + (programC ops dropC false 20 dropB (box 0 [[]])).net ≠ 0 := by decide +kernel

end Examples

end Verif.Props.LoopCount
