import Verif.Props.LoopOps
import Verif.Lemmas.GenSteps
import Verif.Props.Tarjan
import Verif.Props.ScalarSort
import Verif.Props.Pipeline
import Mathlib.Data.List.Perm.Subperm

/-!
# C49: without separation nothing is duplicated

With `-f -1` loops are never separated, and each statement of the input occurs at most once in the output.
-/

namespace Verif.Props.OneCopy
open Verif.Loop

variable {D S C : Type} {o : DomOps D S C}

/-! ## Specification -/

mutual
/-- The statement blocks in a loop, in the order of the text. -/
def blocksOf : Loop D S → List Block
  | .mk _ _ _ b inner => b.toList ++ blocksIn inner
/-- The statement blocks in a list of loops. -/
def blocksIn : List (Loop D S) → List Block
  | [] => []
  | l :: ls => blocksOf l ++ blocksIn ls
end

mutual
/-- No domain in the loop is a union of several polyhedra. -/
def Conv (o : DomOps D S C) : Loop D S → Prop
  | .mk d _ _ _ inner => o.isConvex d = true ∧ Convs o inner
/-- The same for a list of loops. -/
def Convs (o : DomOps D S C) : List (Loop D S) → Prop
  | [] => True
  | l :: ls => Conv o l ∧ Convs o ls
end

/-- What is assumed about the polyhedral operations: those that build a polyhedron from polyhedra do not
    return a union, and sorting returns a permutation. -/
structure Closed (o : DomOps D S C) : Prop where
  inter : ∀ a b, o.isConvex a = true → o.isConvex b = true → o.isConvex (o.inter a b) = true
  extend : ∀ d n, o.isConvex d = true → o.isConvex (o.extend d n) = true
  project : ∀ d n, o.isConvex d = true → o.isConvex (o.project d n) = true
  convex : ∀ d, o.isConvex (o.convex d) = true
  simpleConvex : ∀ d, o.isConvex (o.simpleConvex d) = true
  lower : ∀ d L s, o.isConvex d = true → o.isConvex (o.strideLowerBound d L s) = true
  addStride : ∀ d s, o.isConvex d = true → o.isConvex (o.addStride d s) = true
  sort : ∀ ds L perm, 0 < L → o.sort ds L = some perm → perm.Perm (List.range ds.length)

/-- The options: no separation, no unrolling, no levels per statement. -/
structure NoSeparation (opt : Options) : Prop where
  f : opt.f < 0
  unroll : opt.firstUnroll < 0
  fs : opt.fs = none ∨ opt.ls = none

/-- The hull of a bounded union is bounded (otherwise the union is split, C64). -/
def HullBounded (o : DomOps D S C) (opt : Options) : Prop :=
  ∀ d L, o.isBounded d L = true → o.isBounded (boundingDomain o opt d) L = true

/-! ## Proofs -/

theorem blocksIn_eq : ∀ ls : List (Loop D S), blocksIn ls = ls.flatMap blocksOf
  | [] => by simp [blocksIn]
  | l :: ls => by rw [blocksIn, blocksIn_eq ls, List.flatMap_cons]

theorem blocksIn_append (a b : List (Loop D S)) : blocksIn (a ++ b) = blocksIn a ++ blocksIn b := by
  simp [blocksIn_eq]

theorem convs_iff : ∀ ls : List (Loop D S), Convs o ls ↔ ∀ l ∈ ls, Conv o l
  | [] => by simp [Convs]
  | l :: ls => by rw [Convs, convs_iff ls, List.forall_mem_cons]

theorem conv_iff (l : Loop D S) : Conv o l ↔ o.isConvex l.dom = true ∧ ∀ i ∈ l.inner, Conv o i := by
  cases l with
  | mk d ot st b i => rw [Conv, convs_iff]; rfl

theorem blocksOf_eq (l : Loop D S) : blocksOf l = l.block.toList ++ blocksIn l.inner := by
  cases l with
  | mk d ot st b i => rw [blocksOf]; rfl

theorem blocks_sublist {a b : List (Loop D S)} (h : a.Sublist b) : (blocksIn a).Sublist (blocksIn b) := by
  rw [blocksIn_eq, blocksIn_eq]
  induction h with
  | slnil => exact List.Sublist.refl _
  | cons _ _ ih => exact ih.trans (List.sublist_append_right _ _)
  | cons_cons _ _ ih => exact (List.Sublist.refl _).append ih

theorem blocks_perm {a b : List (Loop D S)} (h : a.Perm b) : (blocksIn a).Perm (blocksIn b) := by
  rw [blocksIn_eq, blocksIn_eq]
  exact h.flatMap_right _

/-- A function on loops that keeps their blocks. -/
theorem blocks_map {f : Loop D S → Loop D S} (h : ∀ l, blocksOf (f l) = blocksOf l) (ls : List (Loop D S)) :
    blocksIn (ls.map f) = blocksIn ls := by
  rw [blocksIn_eq, blocksIn_eq, List.flatMap_map]
  exact List.flatMap_congr fun l _ => h l

theorem blocks_filterMap {f : Loop D S → Option (Loop D S)} : ∀ (ls : List (Loop D S)),
    (∀ l ∈ ls, ∀ m, f l = some m → (blocksOf m).Sublist (blocksOf l)) →
    (blocksIn (ls.filterMap f)).Sublist (blocksIn ls)
  | [], _ => by simp [blocksIn]
  | l :: ls, h => by
    have ih := blocks_filterMap ls fun m hm => h m (List.mem_cons_of_mem _ hm)
    rw [List.filterMap_cons]
    cases hf : f l with
    | none => exact ih.trans (List.sublist_append_right _ _)
    | some m => exact (h l List.mem_cons_self m hf).append ih

/-- Result of one step: fewer blocks, and polyhedra only. -/
def Good (o : DomOps D S C) (a r : List (Loop D S)) : Prop :=
  Convs o r ∧ (blocksIn r).Subperm (blocksIn a)

theorem flatMapM_good {f : Loop D S → Option (List (Loop D S))} : ∀ {ls r : List (Loop D S)},
    (∀ l ∈ ls, ∀ q, f l = some q → Good o [l] q) → flatMapM f ls = some r → Good o ls r
  | [], r, _, h => by
    obtain rfl : [] = r := by simpa [flatMapM] using h
    exact ⟨by simp [Convs], List.Subperm.refl _⟩
  | l :: ls, r, h, hr => by
    unfold flatMapM at hr
    split at hr
    · simp at hr
    · rename_i q hq
      split at hr
      · simp at hr
      · rename_i q' hq'
        obtain rfl := Option.some.inj hr
        have h1 := h l List.mem_cons_self q hq
        have h2 := flatMapM_good (fun m hm => h m (List.mem_cons_of_mem _ hm)) hq'
        refine ⟨(convs_iff _).2 fun m hm => ?_, ?_⟩
        · rcases List.mem_append.1 hm with hm | hm
          · exact (convs_iff _).1 h1.1 m hm
          · exact (convs_iff _).1 h2.1 m hm
        · rw [blocksIn_append]
          have e : blocksIn (l :: ls) = blocksIn [l] ++ blocksIn ls := by simp [blocksIn]
          rw [e]
          exact h1.2.append h2.2

theorem restrict_good (K : Closed o) {l m : Loop D S} {ctx : D} (hl : Conv o l) (hc : o.isConvex ctx = true)
    (h : restrict o l ctx = some m) : Conv o m ∧ blocksOf m = blocksOf l := by
  have hd : o.isConvex (if o.dim ctx < o.dim l.dom then o.inter (o.extend ctx (o.dim l.dom)) l.dom
      else o.inter ctx l.dom) = true := by
    rw [conv_iff] at hl
    split
    · exact K.inter _ _ (K.extend _ _ hc) hl.1
    · exact K.inter _ _ hc hl.1
  unfold restrict at h
  dsimp only at h
  rw [Option.ite_none_left_eq_some] at h
  obtain ⟨_, h⟩ := h
  obtain rfl := Option.some.inj h
  refine ⟨?_, by rw [blocksOf_eq, blocksOf_eq]; rfl⟩
  rw [conv_iff] at hl ⊢
  exact ⟨hd, hl.2⟩

theorem restrictAll_good (K : Closed o) {ls : List (Loop D S)} {ctx : D} (hl : Convs o ls)
    (hc : o.isConvex ctx = true) : Convs o (restrictAll o ls ctx) ∧
      (blocksIn (restrictAll o ls ctx)).Sublist (blocksIn ls) := by
  rw [convs_iff] at hl
  constructor
  · rw [convs_iff]
    intro m hm
    obtain ⟨l, h1, h2⟩ := List.mem_filterMap.1 hm
    exact (restrict_good K (hl l h1) hc h2).1
  · exact blocks_filterMap ls fun l h1 m h2 => by rw [(restrict_good K (hl l h1) hc h2).2]

theorem restrictInner_good (K : Closed o) {ls : List (Loop D S)} (hl : Convs o ls) :
    Good o ls (restrictInner o ls) := by
  rw [convs_iff] at hl
  have key : ∀ l ∈ ls, ∀ m, (if (restrictAll o l.inner l.dom).isEmpty then none
      else some (l.setInner (restrictAll o l.inner l.dom))) = some m →
      Conv o m ∧ (blocksOf m).Sublist (blocksOf l) := by
    intro l h1 m h2
    have hc := (conv_iff l).1 (hl l h1)
    have hr := restrictAll_good K ((convs_iff _).2 hc.2) hc.1
    split at h2
    · simp at h2
    · obtain rfl := Option.some.inj h2
      refine ⟨(conv_iff _).2 ⟨hc.1, (convs_iff _).1 hr.1⟩, ?_⟩
      rw [blocksOf_eq, blocksOf_eq]
      exact (List.Sublist.refl _).append hr.2
  constructor
  · rw [convs_iff]
    intro m hm
    obtain ⟨l, h1, h2⟩ := List.mem_filterMap.1 hm
    exact (key l h1 m h2).1
  · exact (blocks_filterMap ls fun l h1 m h2 => (key l h1 m h2).2).subperm

theorem sort_good (K : Closed o) {L : Nat} {ls r : List (Loop D S)} (hl : Convs o ls) (h : sort o L ls = some r) :
    Good o ls r := by
  unfold sort at h
  split at h
  · obtain rfl := Option.some.inj h
    exact ⟨hl, List.Subperm.refl _⟩
  · rename_i hL
    split at h
    · obtain rfl := Option.some.inj h
      exact ⟨hl, List.Subperm.refl _⟩
    · split at h
      · simp at h
      · rename_i perm hp
        obtain rfl := Option.some.inj h
        have h1 := K.sort _ L perm (Nat.pos_of_ne_zero hL) hp
        rw [List.length_map] at h1
        have h2 : (perm.filterMap (fun i => ls[i]?)).Perm ls := by
          have := h1.filterMap (fun i => ls[i]?)
          rw [Verif.Gen.filterMap_range] at this
          exact this
        refine ⟨(convs_iff _).2 fun l h3 => (convs_iff _).1 hl l (h2.mem_iff.1 h3), (blocks_perm h2).subperm⟩

theorem flat_inner (ls : List (Loop D S)) : (blocksIn (ls.flatMap Loop.inner)).Sublist (blocksIn ls) := by
  induction ls with
  | nil => exact List.Sublist.refl _
  | cons l ls ih =>
    rw [List.flatMap_cons, blocksIn_append, blocksIn, blocksOf_eq]
    exact (List.sublist_append_right _ _).append ih

theorem flat_conv {ls : List (Loop D S)} (h : Convs o ls) : Convs o (ls.flatMap Loop.inner) := by
  rw [convs_iff] at h ⊢
  intro i hi
  obtain ⟨l, h1, h2⟩ := List.mem_flatMap.1 hi
  exact ((conv_iff l).1 (h l h1)).2 i h2

theorem hull_conv (K : Closed o) (opt : Options) (d : D) : o.isConvex (boundingDomain o opt d) = true := by
  unfold boundingDomain
  split
  · exact K.simpleConvex d
  · exact K.convex d

theorem merged_good {d : D} (hd : o.isConvex d = true) {ls : List (Loop D S)} (hl : Convs o ls) :
    Good o ls [.mk d false none none (ls.flatMap Loop.inner)] := by
  refine ⟨?_, ?_⟩
  · rw [convs_iff]
    intro m hm
    rw [List.mem_singleton] at hm
    subst hm
    exact (conv_iff _).2 ⟨hd, (convs_iff _).1 (flat_conv hl)⟩
  · have : blocksIn [Loop.mk d false none none (ls.flatMap Loop.inner)] = blocksIn (ls.flatMap (Loop.inner (D := D) (S := S))) := by
      simp [blocksIn, blocksOf]
    rw [this]
    exact (flat_inner ls).subperm

theorem step3_good (K : Closed o) {fuel L s : Nat} {c : Ctx} (hb : HullBounded o c.opt) {first : Int} (hf : first < 0)
    {ls r : List (Loop D S)} {sep cst : Bool} (hl : Convs o ls)
    (h : step3 o fuel c L s first ls = some (r, sep, cst)) : sep = false ∧ Good o ls r := by
  unfold step3 at h
  split at h
  · simp only [Option.some.injEq, Prod.mk.injEq] at h
    obtain ⟨rfl, rfl, _⟩ := h
    refine ⟨rfl, ?_⟩
    cases ls with
    | nil => exact ⟨hl, List.Subperm.refl _⟩
    | cons l ls => exact merged_good (K.simpleConvex _) hl
  · rw [if_pos (Or.inr hf)] at h
    cases hm : merge o fuel L c.opt ls with
    | none => rw [hm] at h; simp at h
    | some q =>
      rw [hm] at h
      simp only [Option.map_some, Option.some.injEq, Prod.mk.injEq] at h
      obtain ⟨rfl, rfl, _⟩ := h
      refine ⟨rfl, ?_⟩
      cases ls with
      | nil =>
        simp only [merge, Option.some.injEq] at hm
        subst hm
        exact ⟨hl, List.Subperm.refl _⟩
      | cons l ls =>
        have em : merge o fuel L c.opt (l :: ls) = if ls.isEmpty ∧ o.isConvex l.dom then some [l]
          else
            let temp := unionDom o l.dom ls
            let inner := (l :: ls).flatMap Loop.inner
            let nd := boundingDomain o c.opt temp
            if 0 < L ∧ o.isBounded nd L = false ∧ o.isBounded temp L = true then
              mergeSplit o c.opt temp inner fuel (o.boundSplitter temp L) []
            else some [.mk nd false none none inner] := rfl
        rw [em] at hm
        split at hm
        · rename_i hc
          obtain rfl := Option.some.inj hm
          have : ls = [] := List.isEmpty_iff.1 hc.1
          subst this
          exact ⟨hl, List.Subperm.refl _⟩
        · dsimp only at hm
          split at hm
          · rename_i hc
            exact absurd (hb _ _ hc.2.2) (by rw [hc.2.1]; simp)
          · obtain rfl := Option.some.inj hm
            exact merged_good (hull_conv K _ _) hl

theorem Good.trans {a b c : List (Loop D S)} (h1 : Good o a b) (h2 : Good o b c) : Good o a c :=
  ⟨h2.1, h2.2.trans h1.2⟩

/-- A generation step that keeps the property. -/
def GenGood (o : DomOps D S C) (gen : List (Loop D S) → D → Nat → Nat → Option (List (Loop D S))) : Prop :=
  ∀ ls d L s r, Convs o ls → o.isConvex d = true → gen ls d L s = some r → Good o ls r

theorem recurseInner_good {g : List (Loop D S) → Option (List (Loop D S))}
    (hg : ∀ ls r, Convs o ls → g ls = some r → Good o ls r) {L s nb : Nat} : ∀ (n : Nat) {ls r : List (Loop D S)},
    Convs o ls → recurseInner o g L s nb n ls = some r → Good o ls r
  | n, [], r, _, h => by
    unfold recurseInner at h
    obtain rfl := Option.some.inj h
    exact ⟨by simp [Convs], List.Subperm.refl _⟩
  | 0, l :: ls, r, _, h => by simp [recurseInner] at h
  | n + 1, l :: ls, r, hl, h => by
    unfold recurseInner at h
    split at h
    · split at h
      · simp at h
      · rename_i q hq
        split at h
        · simp at h
        · rename_i q' hq'
          obtain rfl := Option.some.inj h
          have e : (spanMore o L s nb (l :: ls)).1 ++ (spanMore o L s nb (l :: ls)).2 = l :: ls := by
            unfold spanMore
            rw [List.span_eq_takeWhile_dropWhile]
            exact List.takeWhile_append_dropWhile
          have hc : ∀ m ∈ (spanMore o L s nb (l :: ls)).1 ++ (spanMore o L s nb (l :: ls)).2, Conv o m := by
            rw [e]; exact (convs_iff _).1 hl
          have h1 := hg _ q ((convs_iff _).2 fun m hm => hc m (List.mem_append_left _ hm)) hq
          have h2 := recurseInner_good hg n ((convs_iff _).2 fun m hm => hc m (List.mem_append_right _ hm)) hq'
          refine ⟨(convs_iff _).2 fun m hm => ?_, ?_⟩
          · rcases List.mem_append.1 hm with hm | hm
            · exact (convs_iff _).1 h1.1 m hm
            · exact (convs_iff _).1 h2.1 m hm
          · rw [← e, blocksIn_append, blocksIn_append]
            exact h1.2.append h2.2
    · split at h
      · simp at h
      · rename_i q hq
        obtain rfl := Option.some.inj h
        rw [Convs] at hl
        have h2 := recurseInner_good hg n hl.2 hq
        refine ⟨by rw [Convs]; exact ⟨hl.1, h2.1⟩, ?_⟩
        rw [blocksIn, blocksIn]
        exact (List.Subperm.refl _).append h2.2

theorem recurseBelow_good (K : Closed o) {c : Ctx} {gen : List (Loop D S) → D → Nat → Nat → Option (List (Loop D S))}
    (hg : GenGood o gen) {L s : Nat} {l m : Loop D S} (hl : Conv o l) (h : recurseBelow o c gen L s l = some m) :
    Good o [l] [m] := by
  unfold recurseBelow at h
  dsimp only at h
  have key : ∀ l' : Loop D S, l'.dom = l.dom → l'.block = l.block → l'.inner = l.inner →
      (match recurseInner o (fun ls => gen ls (match l'.stride with | none => l'.dom | some s => o.addStride l'.dom s)
          (L + 1) s) (L + 1) s c.scaldims.length l'.inner.length l'.inner with
        | none => none
        | some into => some (l'.setInner into)) = some m → Good o [l] [m] := by
    intro l' e1 e2 e3 h
    split at h
    · simp at h
    · rename_i into hi
      obtain rfl := Option.some.inj h
      have hc := (conv_iff l).1 hl
      have hd : o.isConvex (match l'.stride with | none => l'.dom | some s => o.addStride l'.dom s) = true := by
        rw [← e1] at hc
        split
        · exact hc.1
        · exact K.addStride _ _ hc.1
      have h1 := recurseInner_good (fun ls r h1 h2 => hg ls _ _ _ r h1 hd h2) _
        ((convs_iff _).2 (by rw [e3]; exact hc.2)) hi
      refine ⟨?_, ?_⟩
      · rw [convs_iff]
        intro m hm
        rw [List.mem_singleton] at hm
        subst hm
        exact (conv_iff _).2 ⟨by rw [Loop.dom_setInner, e1]; exact hc.1, (convs_iff _).1 h1.1⟩
      · simp only [blocksIn, List.append_nil, blocksOf_eq, Loop.block_setInner, Loop.inner_setInner]
        rw [e2, ← e3]
        exact (List.Subperm.refl _).append h1.2
  by_cases hq : 0 < L ∧ c.opt.otl = true
  · rw [if_pos hq] at h
    exact key (loopOtl o L l) (by cases l; rfl) (by cases l; rfl) (by cases l; rfl) h
  · rw [if_neg hq] at h
    exact key l rfl rfl rfl h

theorem stride_good (K : Closed o) (L : Nat) {l : Loop D S} (hl : Conv o l) :
    Conv o (loopStride o L l) ∧ blocksOf (loopStride o L l) = blocksOf l := by
  cases l with
  | mk d ot st b inner =>
    rw [conv_iff] at hl
    have e : loopStride o L (.mk d ot st b inner) = (if o.canStride d L = false then .mk d ot st b inner
        else match o.listStride (inner.map Loop.dom).reverse L with
          | some s => .mk (o.strideLowerBound d L s) ot (some s) b inner
          | none => match strideSearch (inner.map (fun l => o.stride l.dom L)) with
            | none => .mk d ot st b inner
            | some (s, off) => .mk (o.strideLowerBound d L (o.mkStride s off)) ot (some (o.mkStride s off)) b inner) := rfl
    rw [e]
    split
    · exact ⟨(conv_iff _).2 hl, rfl⟩
    · split
      · exact ⟨(conv_iff _).2 ⟨K.lower _ _ _ hl.1, hl.2⟩, by rw [blocksOf, blocksOf]⟩
      · split
        · exact ⟨(conv_iff _).2 hl, rfl⟩
        · exact ⟨(conv_iff _).2 ⟨K.lower _ _ _ hl.1, hl.2⟩, by rw [blocksOf, blocksOf]⟩

theorem loopRecurse_good (K : Closed o) {c : Ctx} (hu : c.opt.firstUnroll < 0)
    {gen : List (Loop D S) → D → Nat → Nat → Option (List (Loop D S))}
    (hg : GenGood o gen) {cst : Bool} {L s : Nat} {l : Loop D S} {q : List (Loop D S)} (hl : Conv o l)
    (h : loopRecurse o c gen cst L s l = some q) : Good o [l] q := by
  have hp : ∃ m, recursePrepare o c cst L s l = some (.inl m) ∧ Conv o m ∧ blocksOf m = blocksOf l := by
    unfold recursePrepare
    dsimp only
    rw [if_neg (fun h => by omega)]
    split
    · exact ⟨_, rfl, stride_good K L hl⟩
    · exact ⟨_, rfl, hl, rfl⟩
  obtain ⟨m, h1, h2, h3⟩ := hp
  unfold loopRecurse at h
  rw [h1] at h
  dsimp only at h
  unfold loopRecurseConst at h
  rw [Option.map_eq_some_iff] at h
  obtain ⟨n, hn, rfl⟩ := h
  have := recurseBelow_good K hg h2 hn
  refine ⟨this.1, ?_⟩
  have e : blocksIn [m] = blocksIn [l] := by simp [blocksIn, h3]
  rw [← e]
  exact this.2

theorem disjoint_conv {fuel : Nat} {ls r : List (Loop D S)} (hl : Convs o ls) (h : disjoint o fuel ls = some r) : r = ls := by
  unfold disjoint at h
  induction ls generalizing r with
  | nil => simpa [flatMapM] using h.symm
  | cons l ls ih =>
    rw [Convs] at hl
    unfold flatMapM at h
    split at h
    · simp at h
    · rename_i q hq
      split at h
      · simp at h
      · rename_i q' hq'
        obtain rfl := Option.some.inj h
        rw [ih hl.2 hq']
        have : q = [l] := by
          cases fuel with
          | zero => simp [addDisjoint] at hq
          | succ n =>
            unfold addDisjoint at hq
            rw [if_pos ((conv_iff l).1 hl.1).1] at hq
            exact (Option.some.inj hq).symm
        rw [this]
        rfl

theorem nestProjections_good (K : Closed o) {d : D} (hd : o.isConvex d = true) {L : Nat} : ∀ (n : Nat) (t : Loop D S),
    Conv o t → Conv o (nestProjections o d L n t) ∧ blocksOf (nestProjections o d L n t) = blocksOf t
  | 0, t, h => ⟨h, rfl⟩
  | n + 1, t, h => by
    unfold nestProjections
    have := nestProjections_good K hd (L := L) n (.mk (o.project d (L + n)) false none none [t]) (by
      rw [conv_iff]
      refine ⟨K.project _ _ hd, ?_⟩
      intro i hi
      simp only [Loop.inner_mk, List.mem_singleton] at hi
      rw [hi]; exact h)
    refine ⟨this.1, this.2.trans ?_⟩
    simp [blocksOf, blocksIn]

theorem nestBelow_good (K : Closed o) {fuel L : Nat} {l : Loop D S} {q : List (Loop D S)} (hl : Conv o l)
    (h : nestBelow o fuel L l = some q) : Good o [l] q := by
  have hc := (conv_iff l).1 hl
  unfold nestBelow nest at h
  cases hd : disjoint o fuel l.inner with
  | none => rw [hd] at h; simp at h
  | some ds =>
    rw [hd] at h
    dsimp only at h
    obtain rfl := Option.some.inj h
    have e := disjoint_conv ((convs_iff _).2 hc.2) hd
    subst e
    have key : ∀ i ∈ l.inner, ∀ m, nestOne o l.dom (L + 1) i = some m → Conv o m ∧ blocksOf m = blocksOf i := by
      intro i hi m hm
      unfold nestOne at hm
      split at hm
      · simp at hm
      · rename_i p hp
        obtain rfl := Option.some.inj hm
        obtain ⟨h1, h2⟩ := restrict_good K (hc.2 i hi) hc.1 hp
        have h3 := (conv_iff p).1 h1
        have := nestProjections_good K h3.1 (L := L + 1) (o.dim p.dom + 1 - (L + 1)) (.mk p.dom false none p.block p.inner)
          ((conv_iff _).2 h3)
        refine ⟨this.1, this.2.trans ?_⟩
        rw [← h2, blocksOf_eq, blocksOf_eq]; rfl
    refine ⟨?_, ?_⟩
    · rw [convs_iff]
      intro m hm
      rw [List.mem_singleton] at hm
      subst hm
      refine (conv_iff _).2 ⟨hc.1, fun i hi => ?_⟩
      obtain ⟨j, h1, h2⟩ := List.mem_filterMap.1 hi
      exact (key j h1 i h2).1
    · simp only [blocksIn, List.append_nil, blocksOf_eq, Loop.block_mk, Loop.inner_mk, Option.toList_none, List.nil_append]
      exact ((blocks_filterMap _ fun i h1 m h2 => by rw [(key i h1 m h2).2]).trans (List.sublist_append_right _ _)).subperm

theorem propagate_good (K : Closed o) {ls : List (Loop D S)} (hl : Convs o ls) : Good o ls (propagate o ls) := by
  have hb : ∀ l : Loop D S, blocksOf (propagateOne o l) = blocksOf l := by
    intro l
    unfold propagateOne
    split
    · split
      · rw [blocksOf_eq, blocksOf_eq]; rfl
      · rfl
    · rfl
  constructor
  · rw [convs_iff] at hl ⊢
    intro m hm
    obtain ⟨l, h1, rfl⟩ := List.mem_map.1 hm
    have hc := (conv_iff l).1 (hl l h1)
    unfold propagateOne
    split
    · split
      · rename_i h2
        exact (conv_iff _).2 ⟨K.inter _ _ h2.2 hc.1, hc.2⟩
      · exact hl l h1
    · exact hl l h1
  · rw [propagate, blocks_map hb]

theorem general_good (K : Closed o) {c : Ctx} (hb : HullBounded o c.opt) (hopt : NoSeparation c.opt) {fuel : Nat}
    {gen : List (Loop D S) → D → Nat → Nat → Option (List (Loop D S))} (hg : GenGood o gen) {L s : Nat}
    {ls r : List (Loop D S)} (hl : Convs o ls) (h : generateGeneral o fuel c gen L s ls = some r) : Good o ls r := by
  have hlev : levels c.opt ls = (c.opt.f, c.opt.l) := (Verif.Props.LoopOps.C28_levels c.opt ls).2 hopt.fs
  unfold generateGeneral at h
  dsimp only at h
  rw [hlev] at h
  dsimp only at h
  split at h
  · simp at h
  · rename_i r3 sep cst h3
    obtain ⟨rfl, g3⟩ := step3_good K hb hopt.f hl h3
    split at h
    · simp at h
    · rename_i r3b h3b
      have g3b : Good o r3 r3b := by
        unfold step3b at h3b
        split at h3b
        · simp at h3b
        · rename_i q hq
          simp only [Bool.false_eq_true, if_false, Option.some.injEq] at h3b
          subst h3b
          have := sort_good K g3.1 hq
          exact this.trans (restrictInner_good K this.1)
      split at h
      · simp at h
      · rename_i r4 h4
        have g4 : Good o r3b r4 := by
          unfold step4 at h4
          split at h4
          · exact flatMapM_good (fun l h1 q h2 => loopRecurse_good K hopt.unroll hg ((convs_iff _).1 g3b.1 l h1) h2) h4
          · exact flatMapM_good (fun l h1 q h2 => nestBelow_good K ((convs_iff _).1 g3b.1 l h1) h2) h4
        have g5 : Good o r4 r := by
          unfold step5 at h
          dsimp only at h
          rw [if_neg (fun h' => h'.2.2.2.2 hopt.f)] at h
          obtain rfl := Option.some.inj h
          split
          · exact propagate_good K g4.1
          · exact ⟨g4.1, List.Subperm.refl _⟩
        exact g3.trans (g3b.trans (g4.trans g5))

theorem combineFrom_good : ∀ (ls : List (Loop D S)) (a : Loop D S), Conv o a → Convs o ls →
    Good o (a :: ls) (combineFrom o a ls)
  | [], a, h1, h2 => ⟨by rw [combineFrom, Convs]; exact ⟨h1, h2⟩, List.Subperm.refl _⟩
  | b :: ls, a, h1, h2 => by
    rw [Convs] at h2
    unfold combineFrom
    split
    · have hc : Conv o (a.setInner (a.inner ++ b.inner)) := by
        rw [conv_iff]
        refine ⟨((conv_iff a).1 h1).1, fun i hi => ?_⟩
        rcases List.mem_append.1 hi with hi | hi
        · exact ((conv_iff a).1 h1).2 i hi
        · exact ((conv_iff b).1 h2.1).2 i hi
      have ih := combineFrom_good ls (a.setInner (a.inner ++ b.inner)) hc h2.2
      refine ⟨ih.1, ih.2.trans (List.Sublist.subperm ?_)⟩
      simp only [blocksIn, blocksOf_eq, Loop.block_setInner, Loop.inner_setInner, blocksIn_append, List.append_assoc]
      exact (List.Sublist.refl _).append ((List.Sublist.refl _).append (List.sublist_append_right _ _))
    · have ih := combineFrom_good ls b h2.1 h2.2
      refine ⟨by rw [Convs]; exact ⟨h1, ih.1⟩, ?_⟩
      rw [blocksIn, blocksIn.eq_2 a]
      exact (List.Subperm.refl _).append ih.2

theorem components_perm {fol : Loop D S → Loop D S → Bool → Bool} {ls : List (Loop D S)} {cs : List (List (Loop D S))}
    (h : componentsOf fol ls = some cs) : cs.flatten.Perm ls := by
  unfold componentsOf at h
  obtain ⟨is, h1, h2, _⟩ := Verif.Props.Tarjan.C21_components (edge fol ls) ls.length (fun _ => (0, false))
  rw [h1] at h
  dsimp only at h
  obtain rfl := Option.some.inj h
  have e : ((is.map (fun c => c.map (fun x : Nat => (x : Int)))).map (fun c => c.filterMap (fun i => ls[i.toNat]?))) =
      is.map (fun c => c.filterMap (fun i => ls[i]?)) := by
    rw [List.map_map]
    refine List.map_congr_left fun c _ => ?_
    simp [List.filterMap_map, Function.comp_def]
  rw [e]
  have e2 : (is.map (fun c => c.filterMap (fun i => ls[i]?))).flatten = is.flatten.filterMap (fun i => ls[i]?) := by
    rw [List.filterMap_flatten]
  rw [e2]
  have := h2.filterMap (fun i => ls[i]?)
  rw [Verif.Gen.filterMap_range] at this
  exact this

theorem lists_good {f : List (Loop D S) → Option (List (Loop D S))} : ∀ {cs : List (List (Loop D S))} {r : List (Loop D S)},
    (∀ c ∈ cs, ∀ q, f c = some q → Good o c q) → flatMapM f cs = some r → Good o cs.flatten r
  | [], r, _, h => by
    obtain rfl : [] = r := by simpa [flatMapM] using h
    exact ⟨by simp [Convs], List.Subperm.refl _⟩
  | l :: ls, r, h, hr => by
    unfold flatMapM at hr
    split at hr
    · simp at hr
    · rename_i q hq
      split at hr
      · simp at hr
      · rename_i q' hq'
        obtain rfl := Option.some.inj hr
        have h1 := h l List.mem_cons_self q hq
        have h2 := lists_good (fun m hm => h m (List.mem_cons_of_mem _ hm)) hq'
        refine ⟨(convs_iff _).2 fun m hm => ?_, ?_⟩
        · rcases List.mem_append.1 hm with hm | hm
          · exact (convs_iff _).1 h1.1 m hm
          · exact (convs_iff _).1 h2.1 m hm
        · rw [List.flatten_cons, blocksIn_append, blocksIn_append]
          exact h1.2.append h2.2

theorem components_good (K : Closed o) {c : Ctx} (hb : HullBounded o c.opt) (hopt : NoSeparation c.opt) {fuel : Nat}
    {gen : List (Loop D S) → D → Nat → Nat → Option (List (Loop D S))} (hg : GenGood o gen) {L s : Nat}
    {ls r : List (Loop D S)} (hl : Convs o ls) (h : generateComponents o fuel c gen L s ls = some r) : Good o ls r := by
  unfold generateComponents at h
  split at h
  · exact general_good K hb hopt hg hl h
  · split at h
    · simp at h
    · rename_i cs hcs
      split at h
      · simp at h
      · rename_i q hq
        obtain rfl := Option.some.inj h
        have hp := components_perm hcs
        have hc : ∀ d ∈ cs, Convs o d := fun d hd => (convs_iff _).2 fun m hm =>
          (convs_iff _).1 hl m (hp.mem_iff.1 (List.mem_flatten.2 ⟨d, hd, hm⟩))
        have h1 := lists_good (fun d hd q hq => general_good K hb hopt hg (hc d hd) hq) hq
        have h2 : Good o q (combine o q) := by
          cases q with
          | nil => exact ⟨h1.1, List.Subperm.refl _⟩
          | cons a q =>
            have := h1.1
            rw [Convs] at this
            exact combineFrom_good q a this.1 this.2
        refine ⟨h2.1, h2.2.trans (h1.2.trans (blocks_perm hp).subperm)⟩

theorem scalarLoop_good {c : Ctx} {g : List (Loop D S) → Option (List (Loop D S))}
    (hg : ∀ ls r, Convs o ls → g ls = some r → Good o ls r) {L s s' : Nat} : ∀ (n : Nat) {ls r : List (Loop D S)},
    Convs o ls → scalarLoop o c g L s s' n ls = some r → Good o ls r
  | n, [], r, _, h => by
    unfold scalarLoop at h
    obtain rfl := Option.some.inj h
    exact ⟨by simp [Convs], List.Subperm.refl _⟩
  | 0, l :: ls, r, _, h => by simp [scalarLoop] at h
  | n + 1, l :: ls, r, hl, h => by
    have e : (scalarGroup o c L s s' l ls).1 ++ (scalarGroup o c L s s' l ls).2 = ls := by
      unfold scalarGroup
      rw [List.span_eq_takeWhile_dropWhile]
      exact List.takeWhile_append_dropWhile
    rw [Convs] at hl
    have hc : ∀ m ∈ (scalarGroup o c L s s' l ls).1 ++ (scalarGroup o c L s s' l ls).2, Conv o m := by
      rw [e]; exact (convs_iff _).1 hl.2
    have hc1 : Convs o (l :: (scalarGroup o c L s s' l ls).1) := by
      rw [Convs]; exact ⟨hl.1, (convs_iff _).2 fun m hm => hc m (List.mem_append_left _ hm)⟩
    have hc2 : Convs o (scalarGroup o c L s s' l ls).2 := (convs_iff _).2 fun m hm => hc m (List.mem_append_right _ hm)
    have eb : blocksIn (l :: ls) = blocksIn (l :: (scalarGroup o c L s s' l ls).1) ++ blocksIn (scalarGroup o c L s s' l ls).2 := by
      rw [blocksIn, blocksIn.eq_2, List.append_assoc, ← blocksIn_append, e]
    unfold scalarLoop at h
    split at h
    · split at h
      · simp at h
      · rename_i q hq
        split at h
        · simp at h
        · rename_i q' hq'
          obtain rfl := Option.some.inj h
          have h1 := hg _ q hc1 hq
          have h2 := scalarLoop_good hg n hc2 hq'
          refine ⟨(convs_iff _).2 fun m hm => ?_, ?_⟩
          · rcases List.mem_append.1 hm with hm | hm
            · exact (convs_iff _).1 h1.1 m hm
            · exact (convs_iff _).1 h2.1 m hm
          · rw [eb, blocksIn_append]
            exact h1.2.append h2.2
    · split at h
      · simp at h
      · obtain rfl := Option.some.inj h
        refine ⟨hc1, ?_⟩
        rw [eb]
        exact (List.sublist_append_left _ _).subperm
      · rename_i q q' hq'
        obtain rfl := Option.some.inj h
        have h2 := scalarLoop_good hg n hc2 hq'
        refine ⟨by rw [Convs]; exact ⟨hl.1, h2.1⟩, ?_⟩
        rw [eb, blocksIn, blocksIn.eq_2 l, List.append_assoc]
        exact (List.Subperm.refl _).append (h2.2.trans (List.sublist_append_right _ _).subperm)

theorem restricted_good (K : Closed o) {c : Ctx} (hb : HullBounded o c.opt) (hopt : NoSeparation c.opt) :
    ∀ (fuel : Nat) (orStop : Bool) (ls : List (Loop D S)) (ctx : D) (L s : Nat) (r : List (Loop D S)), Convs o ls →
      o.isConvex ctx = true → generateRestricted o c fuel orStop ls ctx L s = some r → Good o ls r
  | 0, _, _, _, _, _, _, _, _, h => by simp [generateRestricted] at h
  | fuel + 1, orStop, ls, ctx, L, s, r, hl, hc, h => by
    unfold generateRestricted at h
    split at h
    · obtain rfl := Option.some.inj h
      have hb : blocksIn (stop ls ctx) = blocksIn ls := blocks_map (fun l => by rw [blocksOf_eq, blocksOf_eq]; rfl) ls
      refine ⟨?_, by rw [hb]⟩
      rw [convs_iff] at hl ⊢
      intro m hm
      obtain ⟨l, h1, rfl⟩ := List.mem_map.1 hm
      exact (conv_iff _).2 ⟨hc, ((conv_iff l).1 (hl l h1)).2⟩
    · split at h
      · unfold generateScalar at h
        dsimp only at h
        split at h
        · simp at h
        · rename_i q hq
          have hp := (Verif.Props.ScalarSort.bubble_spec _ _ _ _ hq).1
          have hlq : Convs o q := (convs_iff _).2 fun m hm => (convs_iff _).1 hl m (hp.mem_iff.1 hm)
          have := scalarLoop_good (fun ls r h1 h2 => restricted_good K hb hopt fuel false ls ctx L _ r h1 hc h2) _ hlq h
          exact ⟨this.1, this.2.trans (blocks_perm hp).subperm⟩
      · have hp : Convs o (projectAll o ls L) ∧ blocksIn (projectAll o ls L) = blocksIn ls := by
          constructor
          · rw [convs_iff] at hl ⊢
            intro m hm
            obtain ⟨l, h1, rfl⟩ := List.mem_map.1 hm
            have hd := (conv_iff l).1 (hl l h1)
            refine (conv_iff _).2 ⟨?_, fun i hi => ?_⟩
            · unfold project
              simp only [Loop.dom_mk]
              split
              · exact hd.1
              · exact K.project _ _ hd.1
            · simp only [project, Loop.inner_mk, List.mem_singleton] at hi
              rw [hi]
              exact hl l h1
          · exact blocks_map (fun l => by simp [project, blocksOf, blocksIn]) ls
        have := components_good K hb hopt (fun ls d L s r h1 h2 h3 => restricted_good K hb hopt fuel true ls d L s r h1 h2 h3)
          hp.1 h
        exact ⟨this.1, by rw [← hp.2]; exact this.2⟩

theorem simplify_good (fuel : Nat) : ∀ (ls : List (Loop D S)) (ctx : D) (r : List (Loop D S)), Convs o ls →
    simplify o fuel ls ctx = some r → (blocksIn r).Sublist (blocksIn ls) := by
  induction fuel with
  | zero => intro ls ctx r _ h; simp [simplify] at h
  | succ fuel ih =>
    intro ls ctx r hl h
    unfold simplify at h
    have hm : (ls.map fun l => if o.isConvex l.dom then l else l.setDom (o.simplifyUnion l.dom)) = ls := by
      have := (List.map_congr_left (f := fun l : Loop D S => if o.isConvex l.dom then l else l.setDom (o.simplifyUnion l.dom))
        (g := id) (l := ls) fun l h1 => by
          show (if o.isConvex l.dom then l else _) = l
          rw [if_pos ((conv_iff l).1 ((convs_iff _).1 hl l h1)).1])
      rw [this, List.map_id]
    have hp : simplifyPrepare o fuel ls = some ls := by
      unfold simplifyPrepare
      dsimp only
      rw [hm, if_pos]
      rw [List.all_eq_true]
      exact fun l h1 => ((conv_iff l).1 ((convs_iff _).1 hl l h1)).1
    rw [hp] at h
    dsimp only at h
    clear hm hp
    induction ls generalizing r with
    | nil =>
      obtain rfl : [] = r := by simpa [flatMapM] using h
      exact List.Sublist.refl _
    | cons l ls ihl =>
      rw [Convs] at hl
      unfold flatMapM at h
      split at h
      · simp at h
      · rename_i q hq
        split at h
        · simp at h
        · rename_i q' hq'
          obtain rfl := Option.some.inj h
          have h2 := ihl q' hl.2 hq'
          rw [blocksIn_append, blocksIn]
          refine List.Sublist.append ?_ h2
          rw [Option.map_eq_some_iff] at hq
          obtain ⟨m, hm, rfl⟩ := hq
          unfold loopSimplify at hm
          dsimp only at hm
          split at hm
          · obtain rfl := Option.some.inj hm
            simp [blocksIn]
          · split at hm
            · simp at hm
            · rename_i inner hi
              have hs := ih l.inner _ inner ((convs_iff _).2 ((conv_iff l).1 hl.1).2) hi
              split at hm
              · obtain rfl := Option.some.inj hm
                simp [blocksIn]
              · obtain rfl := Option.some.inj hm
                simp only [Option.toList_some, blocksIn, List.append_nil, blocksOf_eq, Loop.block_mk, Loop.inner_mk]
                exact (List.Sublist.refl _).append hs

/-- **C49.**  With `-f -1` (and without unrolling or levels per statement, whatever the other options are), if the
    domains of the statements and the context are polyhedra, every statement block of the input occurs in the
    generated code, after simplification too, at most as often as in the input.
    Partial: false for domains that are unions (`C49_union`), and for unions of domains with unbounded hulls. -/
theorem C49_no_duplication_partial (K : Closed o) (c : Ctx) (hopt : NoSeparation c.opt) (hb : HullBounded o c.opt)
    (fuel fuel' : Nat) (ls tree out : List (Loop D S)) (ctx : D) (L s : Nat) (hl : Convs o ls)
    (hc : o.isConvex ctx = true) (h : generate o c fuel ls ctx L s = some tree) (ctx' : D)
    (h' : simplify o fuel' tree ctx' = some out) :
    (blocksIn tree).Subperm (blocksIn ls) ∧ (blocksIn out).Subperm (blocksIn ls) := by
  have hr := restrictAll_good K hl hc
  have hg : Good o ls tree := by
    unfold generate at h
    split at h
    · obtain rfl := Option.some.inj h
      exact ⟨by simp [Convs], by rw [blocksIn]; exact (List.nil_sublist _).subperm⟩
    · have := restricted_good K hb hopt fuel true _ ctx L s tree hr.1 hc h
      exact ⟨this.1, this.2.trans hr.2.subperm⟩
  exact ⟨hg.2, (simplify_good fuel' tree ctx' out hg.1 h').subperm.trans hg.2⟩

/-! ## From loops to code -/

open Verif.ClastGen (Stmt)

mutual
/-- The numbers of the statements called in code, in the order of the text. -/
def users : Stmt → List Nat
  | .ass _ _ => []
  | .user n _ => [n]
  | .block b => usersIn b
  | .for_ _ _ _ _ b => usersIn b
  | .guard _ b => usersIn b
/-- The same for a list. -/
def usersIn : List Stmt → List Nat
  | [] => []
  | s :: ss => users s ++ usersIn ss
end

mutual
/-- The statements of a loop that is passed to the construction of code. -/
def stmtsOf : ClastGen.Loop → List Nat
  | .mk _ _ _ block inner => block ++ stmtsIn inner
/-- The same for a list. -/
def stmtsIn : List ClastGen.Loop → List Nat
  | [] => []
  | l :: ls => stmtsOf l ++ stmtsIn ls
end

theorem usersIn_append : ∀ a b : List Stmt, usersIn (a ++ b) = usersIn a ++ usersIn b
  | [], b => by simp [usersIn]
  | s :: a, b => by rw [List.cons_append, usersIn, usersIn, usersIn_append a b, List.append_assoc]

theorem wrap_users (m : ClastGen.ModOut) (body : List Stmt) : usersIn (m.wrap body) = usersIn body := by
  cases m <;> simp [ClastGen.ModOut.wrap, usersIn, users]

theorem assign_users (cx : ClastGen.Ctx) (col : Nat) (e : Clast.Expr) (body : List Stmt) :
    usersIn (ClastGen.assign cx col e body) = usersIn body := by
  unfold ClastGen.assign
  split <;> simp [usersIn, users]

theorem guard_users {cx : ClastGen.Ctx} {d : ClastGen.Dom} {L : Nat} {eqs st sl g}
    (h : ClastGen.insertGuard cx d L eqs st sl = some g) (body : List Stmt) : usersIn (g body) = usersIn body := by
  unfold ClastGen.insertGuard at h
  rw [Option.bind_eq_bind, Option.bind_eq_some_iff] at h
  obtain ⟨⟨copy, outs⟩, hq, h⟩ := h
  dsimp only at h
  obtain rfl := Option.some.inj h
  clear hq h
  dsimp only
  induction outs with
  | nil =>
    rw [List.foldr_nil]
    split
    · rfl
    · simp [usersIn, users]
  | cons m outs ih => rw [List.foldr_cons, wrap_users, ih]

theorem equation_users {cx : ClastGen.Ctx} {d : ClastGen.Dom} {L : Nat} {eqs st u lo s}
    (h : ClastGen.insertEquation cx d L eqs st u lo = some s) (body : List Stmt) :
    usersIn (s.wrap body) = usersIn body := by
  unfold ClastGen.insertEquation at h
  dsimp only at h
  split at h
  · simp only [Option.bind_eq_bind, Option.bind_eq_some_iff] at h
    obtain ⟨e2, _, e1, _, h⟩ := h
    obtain rfl := Option.some.inj h
    simp [usersIn, users]
  · rw [Option.bind_eq_bind, Option.bind_eq_some_iff] at h
    obtain ⟨m, _, h⟩ := h
    split at h
    · obtain rfl := Option.some.inj h
      rfl
    · rw [Option.bind_eq_bind, Option.bind_eq_some_iff] at h
      obtain ⟨e, _, h⟩ := h
      split at h
      · obtain rfl := Option.some.inj h
        rw [wrap_users, assign_users]
      · split at h
        · obtain rfl := Option.some.inj h
          rw [wrap_users]
        · obtain rfl := Option.some.inj h
          rw [wrap_users, assign_users]

theorem for_users {cx : ClastGen.Ctx} {icmp rows} {L : Nat} {otl st vars s}
    (h : ClastGen.insertFor cx icmp rows L otl st vars = some s) (body : List Stmt) :
    usersIn (s.wrap body) = usersIn body := by
  unfold ClastGen.insertFor at h
  dsimp only at h
  split at h
  · obtain rfl := Option.some.inj h
    rfl
  · split at h
    · simp at h
    · split at h
      · split at h
        · obtain rfl := Option.some.inj h
          rw [assign_users]
          simp [usersIn, users]
        · simp at h
      · obtain rfl := Option.some.inj h
        simp [usersIn, users]

theorem step_users {cx : ClastGen.Ctx} {icmp} {d : ClastGen.Dom} {L : Nat} {otl eqs st s}
    (h : ClastGen.loopStep cx icmp d L otl eqs st = some s) (body : List Stmt) :
    usersIn (s.wrap body) = usersIn body := by
  unfold ClastGen.loopStep at h
  split at h
  · split at h
    · exact equation_users h body
    · split at h
      · exact equation_users h body
      · exact for_users h body
  · obtain rfl := Option.some.inj h
    rfl

theorem block_users (cx : ClastGen.Ctx) (eqs) (n : Nat) : ∀ block : List Nat,
    usersIn (ClastGen.insertBlock cx eqs block n) = block
  | [] => by simp [ClastGen.insertBlock, usersIn]
  | b :: bs => by
    have := block_users cx eqs n bs
    unfold ClastGen.insertBlock at this ⊢
    rw [List.map_cons, usersIn, users, this]
    rfl

mutual
theorem loop_users (cx : ClastGen.Ctx) (icmp) : ∀ (l : ClastGen.Loop) (L : Nat) (eqs st r),
    ClastGen.insertLoop cx icmp L eqs st l = some r → (usersIn r).Sublist (stmtsOf l)
  | .mk d st otl block inner, L, eqs, strides, r, h => by
    unfold ClastGen.insertLoop at h
    simp only [Option.bind_eq_bind, Option.bind_eq_some_iff] at h
    obtain ⟨g, hg, s, hs, h⟩ := h
    rw [stmtsOf]
    split at h
    · obtain rfl := Option.some.inj h
      rw [guard_users hg, step_users hs, usersIn]
      exact List.nil_sublist _
    · rw [Option.bind_eq_some_iff] at h
      obtain ⟨rest, hr, h⟩ := h
      obtain rfl := Option.some.inj h
      rw [guard_users hg, step_users hs, usersIn_append, block_users]
      exact (List.Sublist.refl _).append (loops_users cx icmp inner _ _ _ rest hr)
theorem loops_users (cx : ClastGen.Ctx) (icmp) : ∀ (ls : List ClastGen.Loop) (L : Nat) (eqs st r),
    ClastGen.insertLoops cx icmp L eqs st ls = some r → (usersIn r).Sublist (stmtsIn ls)
  | [], L, eqs, strides, r, h => by
    unfold ClastGen.insertLoops at h
    obtain rfl := Option.some.inj h
    simp [usersIn, stmtsIn]
  | l :: ls, L, eqs, strides, r, h => by
    unfold ClastGen.insertLoops at h
    simp only [Option.bind_eq_bind, Option.bind_eq_some_iff] at h
    obtain ⟨a, ha, b, hb, h⟩ := h
    obtain rfl := Option.some.inj h
    rw [usersIn_append, stmtsIn]
    exact (loop_users cx icmp l L eqs strides a ha).append (loops_users cx icmp ls L eqs strides b hb)
end

mutual
theorem stmts_toLoop (view : D → ClastGen.Dom) (vs : S → ClastGen.Stride) : ∀ l : Loop D S,
    stmtsOf (Pipeline.toLoop view vs l) = (blocksOf l).flatMap Block.stmts
  | .mk d ot st b inner => by
    have h := stmts_toLoops view vs inner
    cases b with
    | none =>
      have e : Pipeline.toLoop view vs (Loop.mk d ot st none inner) =
          .mk (view d) (st.map vs) ot [] (Pipeline.toLoops view vs inner) := by rw [Pipeline.toLoop.eq_def]
      rw [e, stmtsOf, blocksOf, h]
      simp
    | some b =>
      have e : Pipeline.toLoop view vs (Loop.mk d ot st (some b) inner) =
          .mk (view d) (st.map vs) ot b.stmts (Pipeline.toLoops view vs inner) := by rw [Pipeline.toLoop.eq_def]
      rw [e, stmtsOf, blocksOf, h]
      simp
theorem stmts_toLoops (view : D → ClastGen.Dom) (vs : S → ClastGen.Stride) : ∀ ls : List (Loop D S),
    stmtsIn (Pipeline.toLoops view vs ls) = (blocksIn ls).flatMap Block.stmts
  | [] => by simp [Pipeline.toLoops, stmtsIn, blocksIn]
  | l :: ls => by
    rw [Pipeline.toLoops, stmtsIn, blocksIn, stmts_toLoop view vs l, stmts_toLoops view vs ls, List.flatMap_append]
end

theorem subperm_flatMap {α β : Type} (f : α → List β) {a b : List α} (h : a.Subperm b) :
    (a.flatMap f).Subperm (b.flatMap f) := by
  obtain ⟨l, h1, h2⟩ := h
  refine ⟨l.flatMap f, h1.flatMap_right f, ?_⟩
  clear h1
  induction h2 with
  | slnil => exact List.Sublist.refl _
  | cons _ _ ih => exact ih.trans (List.sublist_append_right _ _)
  | cons_cons _ _ ih => exact (List.Sublist.refl _).append ih

/-- **C49, in the code.**  Under the same conditions, each statement is called in the generated code at most as often
    as it occurs in the input: at most once, if the input has it once. -/
theorem C49_calls_partial (K : Closed o) (c : Ctx) (hopt : NoSeparation c.opt) (hb : HullBounded o c.opt)
    (fuel fuel' : Nat) (ls tree out : List (Loop D S)) (ctx : D) (L s : Nat) (hl : Convs o ls)
    (hc : o.isConvex ctx = true) (h : generate o c fuel ls ctx L s = some tree) (ctx' : D)
    (h' : simplify o fuel' tree ctx' = some out) (view : D → ClastGen.Dom) (vs : S → ClastGen.Stride)
    (cx : ClastGen.Ctx) (icmp : Int → Int → Int) (code : List Stmt)
    (hcode : ClastGen.clastCreate cx icmp (Pipeline.toLoops view vs out) = some code) :
    (usersIn code).Subperm ((blocksIn ls).flatMap Block.stmts) ∧
    (((blocksIn ls).flatMap Block.stmts).Nodup → (usersIn code).Nodup) := by
  have h1 := (C49_no_duplication_partial K c hopt hb fuel fuel' ls tree out ctx L s hl hc h ctx' h').2
  have h2 := loops_users cx icmp _ _ _ _ _ hcode
  rw [stmts_toLoops] at h2
  have h3 := h2.subperm.trans (subperm_flatMap Block.stmts h1)
  refine ⟨h3, fun hn => ?_⟩
  obtain ⟨q, h4, h5⟩ := h3
  exact h4.nodup_iff.1 (h5.nodup hn)

/-! ## Concrete cases -/

open Verif.BoxDom in
/-- The concrete domains meet the assumptions. -/
theorem box_closed : Closed ops where
  inter := Pipeline.box_conv.inter
  extend d n hd := by
    simp only [ops, decide_eq_true_eq, BD.lift] at *
    split
    · split
      · exact hd
      · simpa using hd
    · exact hd
  project d n hd := by
    simp only [ops, decide_eq_true_eq, List.length_map] at *
    exact hd
  convex d := by simp [ops]
  simpleConvex d := by simp [ops]
  lower d L s hd := hd
  addStride d s hd := hd
  sort ds L perm hL h := by
    simp only [ops] at h
    split at h
    · rename_i hp
      obtain rfl := Option.some.inj h
      exact List.isPerm_iff.1 hp.1
    · simp at h

/-- `-f -1`. -/
def exC : Ctx := ⟨{ f := -1 }, []⟩

theorem exC_ok : NoSeparation exC.opt := ⟨by decide, by decide, Or.inl rfl⟩

/-- For `S1: 1 <= i <= 3` and `S2: 2 <= i <= 3` there is one copy of each; with the default options the first
    statement is there twice. -/
example : ∃ tree out, generate BoxDom.ops exC 20 Pipeline.exB (Generate.box 0 [[]]) 0 0 = some tree ∧
    simplify BoxDom.ops 20 tree (Generate.box 0 [[]]) = some out ∧
    (blocksIn out).Subperm (blocksIn Pipeline.exB) ∧ blocksIn out = [⟨[1], []⟩, ⟨[2], []⟩] ∧
    blocksIn Pipeline.exDs = [⟨[1], []⟩, ⟨[1], []⟩, ⟨[2], []⟩] := by
  have h : ((generate BoxDom.ops exC 20 Pipeline.exB (Generate.box 0 [[]]) 0 0).bind
      (fun T => simplify BoxDom.ops 20 T (Generate.box 0 [[]]))).map blocksIn = some [⟨[1], []⟩, ⟨[2], []⟩] := by
    decide +kernel
  obtain ⟨out, h1, h2⟩ := Option.map_eq_some_iff.1 h
  obtain ⟨tree, h3, h4⟩ := Option.bind_eq_some_iff.1 h1
  exact ⟨tree, out, h3, h4, (C49_no_duplication_partial box_closed exC exC_ok (fun _ _ _ => rfl) 20 20 _ tree out _ 0 0
    (by rw [convs_iff]; intro l hl; simp only [Pipeline.exB, List.mem_cons, List.not_mem_nil, or_false] at hl
        rcases hl with rfl | rfl <;> exact (conv_iff _).2 ⟨by decide, by simp [Generate.stmt]⟩)
    (by decide) h3 _ h4).2, h2, by decide +kernel⟩

/-- The same domains, with an intersection that keeps the parts of its second argument, as isl does for the intersection
    of a polyhedron with a union. -/
def opsU : DomOps BoxDom.BD (Int × Int) Unit := { BoxDom.ops with inter := fun a b => BoxDom.ops.inter b a }

open Verif.Clast in
/-- In the code of that example each statement is called once. -/
example : ∃ code : List Stmt, usersIn code = [1, 2] ∧ (usersIn code).Nodup := by
  have h : ((generate BoxDom.ops exC 20 Pipeline.exB (Generate.box 0 [[]]) 0 0).bind
      (fun T => simplify BoxDom.ops 20 T (Generate.box 0 [[]]))).bind (fun out =>
        ClastGen.clastCreate ClastExec.exC gmpCmp (Pipeline.toLoops Pipeline.exView Pipeline.exVs out)) |>.map usersIn
          |> (· = some [1, 2]) := by
    decide +kernel
  obtain ⟨code, h1, h2⟩ := Option.map_eq_some_iff.1 h
  obtain ⟨out, h1, h5⟩ := Option.bind_eq_some_iff.1 h1
  obtain ⟨tree, h3, h4⟩ := Option.bind_eq_some_iff.1 h1
  exact ⟨code, h2, (C49_calls_partial box_closed exC exC_ok (fun _ _ _ => rfl) 20 20 _ tree out _ 0 0
    (by rw [convs_iff]; intro l hl; simp only [Pipeline.exB, List.mem_cons, List.not_mem_nil, or_false] at hl
        rcases hl with rfl | rfl <;> exact (conv_iff _).2 ⟨by decide, by simp [Generate.stmt]⟩)
    (by decide) h3 _ h4 _ _ _ _ code h5).2 (by decide)⟩

/-- **C49, false for unions.**  A single statement whose domain is the union of `i = 1` and `i = 3` is copied with
    `-f -1` too. -/
theorem C49_union : ∃ (ls tree out : List (Loop BoxDom.BD (Int × Int))),
    generate opsU exC 20 ls (Generate.box 0 [[]]) 0 0 = some tree ∧
    simplify opsU 20 tree (Generate.box 0 [[]]) = some out ∧
    (blocksIn ls).length = 1 ∧ (blocksIn out).length = 2 := by
  have h : ((generate opsU exC 20 [Generate.stmt 1 [] ⟨1, [[[1]], [[3]]]⟩] (Generate.box 0 [[]]) 0 0).bind
      (fun T => simplify opsU 20 T (Generate.box 0 [[]]))).map (fun r => (blocksIn r).length) = some 2 := by
    decide +kernel
  obtain ⟨out, h1, h2⟩ := Option.map_eq_some_iff.1 h
  obtain ⟨tree, h3, h4⟩ := Option.bind_eq_some_iff.1 h1
  exact ⟨_, tree, out, h3, h4, by decide +kernel, h2⟩

end Verif.Props.OneCopy
