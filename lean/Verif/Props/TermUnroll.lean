import Verif.Props.LastLevel
import Verif.Lemmas.GenConv

/-!
# C70: code generation with unrolling terminates

`loop_recurse` (`source/loop.c:1774-1826`) reads the successor of the unrolled loop without a test.  Here it is shown that
something is always left by the unrolling, and so that code generation ends with `-first-unroll` as well.
-/

namespace Verif.Props.Terminates
open Verif.Loop Verif.ScalarSort Verif.Gen

variable {D S C Par : Type} {o : DomOps D S C} {mem : D → Par × Pt → Prop} {ok : Nat → S → Par × Pt → Prop}

/-- The operations without `cloog_domain_sort`: `GenLaws` for them are the assumptions on all the other operations.  (An
    order that is right for every list of domains, as `GenLaws` wants it, and exists for every list, as `TermLaws` wants
    it, is not to be had.) -/
def noSort (o : DomOps D S C) : DomOps D S C := { o with sort := fun _ _ => none }

theorem splitRest_noSort (r : Loop D S → Option (List (Loop D S))) (b : Option Block) (inner : List (Loop D S)) :
    ∀ (n : Nat) (d e : D), splitRest (noSort o) r b inner n d e = splitRest o r b inner n d e := by
  intro n
  induction n with
  | zero => intro d e; rfl
  | succ n ih => intro d e; rw [splitRest, splitRest]; simp only [ih]; rfl

theorem addDisjoint_noSort : ∀ (n : Nat) (l : Loop D S), addDisjoint (noSort o) n l = addDisjoint o n l := by
  intro n
  induction n with
  | zero => intro l; rfl
  | succ n ih =>
    intro l
    rw [addDisjoint, addDisjoint]
    rw [show addDisjoint (noSort o) n = addDisjoint o n from funext ih]
    simp only [splitRest_noSort]
    rfl

theorem combineFrom_noSort : ∀ (ls : List (Loop D S)) (a : Loop D S), combineFrom (noSort o) a ls = combineFrom o a ls
  | [], _ => rfl
  | b :: ls, a => by
    rw [combineFrom, combineFrom, combineFrom_noSort ls, combineFrom_noSort ls]; rfl

theorem combine_noSort (ls : List (Loop D S)) : combine (noSort o) ls = combine o ls := by
  cases ls with
  | nil => rfl
  | cons a ls => exact combineFrom_noSort ls a

theorem sepLoop_noSort (n : Nat) : ∀ (ls res : List (Loop D S)) (d : D), sepLoop (noSort o) n ls res d = sepLoop o n ls res d
  | [], _, _ => rfl
  | l :: ls, res, d => by
    rw [sepLoop, sepLoop, show addDisjoint (noSort o) n = addDisjoint o n from funext (addDisjoint_noSort n)]
    simp only [sepLoop_noSort n ls]
    rfl

theorem mergeSplit_noSort (opt : Options) (t : D) (inner : List (Loop D S)) : ∀ (n : Nat) (d : D) (r : List (Loop D S)),
    mergeSplit (noSort o) opt t inner n d r = mergeSplit o opt t inner n d r
  | 0, _, _ => rfl
  | n + 1, d, r => by
    rw [mergeSplit, mergeSplit]
    simp only [mergeSplit_noSort opt t inner n]
    rfl

theorem unionDom_noSort : ∀ (ls : List (Loop D S)) (d : D), unionDom (noSort o) d ls = unionDom o d ls
  | [], _ => rfl
  | l :: ls, d => by rw [unionDom, unionDom, unionDom_noSort ls]; rfl

theorem step3_noSort (n : Nat) (c : Ctx) (L s : Nat) (first : Int) (ls : List (Loop D S)) :
    step3 (noSort o) n c L s first ls = step3 o n c L s first ls := by
  have h1 : constant (noSort o) ls = constant o ls := by
    cases ls with
    | nil => rfl
    | cons l ls => rw [constant, constant, unionDom_noSort]; rfl
  have h2 : merge (noSort o) n L c.opt ls = merge o n L c.opt ls := by
    cases ls with
    | nil => rfl
    | cons l ls =>
      rw [merge, merge]
      simp only [unionDom_noSort, mergeSplit_noSort]
      rfl
  have h3 : separate (noSort o) n ls = separate o n ls := by
    unfold separate
    rw [combine_noSort]
    unfold disjoint
    rw [show addDisjoint (noSort o) n = addDisjoint o n from funext (addDisjoint_noSort n)]
    simp only [sepLoop_noSort n]
  unfold step3
  rw [h1, h2, h3]
  have h4 : isConstant (noSort o) L ls = isConstant o L ls := rfl
  rw [h4]

/-- What holds of a statement on its way: its dimension is at least that of the scattering, and bounded. -/
def Fit (o : DomOps D S C) (lo N : Nat) (i : Loop D S) : Prop := lo ≤ o.dim i.dom ∧ o.dim i.dom ≤ N

/-- What holds of a loop before `loop_recurse`. -/
structure Full (o : DomOps D S C) (mem : D → Par × Pt → Prop) (lo N L : Nat) (r : Loop D S) : Prop where
  dim : o.dim r.dom = L
  convex : o.isConvex r.dom = true
  ne : r.inner ≠ []
  fit : ∀ i ∈ r.inner, Fit o lo N i
  low : ∀ i ∈ r.inner, L ≤ o.dim i.dom
  point : ∀ i ∈ r.inner, ∃ px, mem i.dom px
  into : ∀ i ∈ r.inner, ∀ px, mem i.dom px → mem r.dom px

theorem unroll_ne (G : GenLaws (noSort o) mem) {lo N L : Nat} (h0 : 0 < L) {r : Loop D S} (hr : Full o mem lo N L r) :
    unrollOne o L r ≠ [] := by
  unfold unrollOne
  cases hu : o.canUnroll r.dom L with
  | none => simp
  | some nc =>
    obtain ⟨n, c⟩ := nc
    obtain ⟨lw, _, h2, h3⟩ := G.unroll r.dom L n c h0 hr.convex hr.dim hu
    obtain ⟨i, hi⟩ := List.exists_mem_of_ne_nil _ hr.ne
    obtain ⟨⟨p, x⟩, hpx⟩ := hr.point i hi
    have hm := hr.into i hi _ hpx
    have hb := h2 p x hm
    intro he
    have hk : (x (L - 1) - lw p x).toNat ∈ List.range n.toNat := List.mem_range.2 (by omega)
    have hf : mem (o.fixedOffset r.dom L c ((x (L - 1) - lw p x).toNat : Int)) (p, x) :=
      (h3 _ p x).2 ⟨hm, by omega⟩
    have := List.filterMap_eq_nil_iff.1 he _ hk
    dsimp only at this
    split at this
    · rename_i hr0
      have hn := List.filterMap_eq_nil_iff.1 (List.isEmpty_iff.1 hr0) i hi
      refine restrict_none G (l := i) ?_ hn (p, x) hf hpx
      have e1 : o.dim (o.fixedOffset r.dom L c ((x (L - 1) - lw p x).toNat : Int)) = L :=
        (G.dim_fixedOffset _ _ _ _).trans hr.dim
      have := hr.low i hi
      show o.dim _ ≤ o.dim _
      omega
    · exact absurd this (by simp)

theorem unroll_fit (G : GenLaws (noSort o) mem) {lo N L : Nat} {r : Loop D S} (hr : Full o mem lo N L r) :
    ∀ m ∈ unrollOne o L r, ∀ i ∈ m.inner, Fit o lo N i := by
  intro m hm i hi
  unfold unrollOne at hm
  split at hm
  · obtain rfl := List.mem_singleton.1 hm
    exact hr.fit i hi
  · rename_i n c _
    obtain ⟨k, _, hk⟩ := List.mem_filterMap.1 hm
    dsimp only at hk
    split at hk
    · exact absurd hk (by simp)
    · obtain rfl := Option.some.inj hk
      obtain ⟨j, hj, hji⟩ := List.mem_filterMap.1 hi
      have e1 : o.dim (o.fixedOffset r.dom L c (k : Int)) = L := (G.dim_fixedOffset _ _ _ _).trans hr.dim
      have e2 : o.dim i.dom = o.dim j.dom := (restrict_spec G (l := j) (r := i) (by
        have := hr.low j hj
        show o.dim _ ≤ o.dim _
        omega) hji).2.2.2.1
      have := hr.fit j hj
      unfold Fit at this ⊢
      omega

theorem stride_full (G : GenLaws (noSort o) mem) (H : StrideLaws (noSort o) mem ok) {lo N L : Nat} (h0 : 0 < L)
    {r : Loop D S} (hr : Full o mem lo N L r) : Full o mem lo N L (loopStride o L r) := by
  obtain ⟨d, ot, st, b, inner⟩ := r
  have base : Full o mem lo N L (.mk d ot none none inner) := ⟨hr.dim, hr.convex, hr.ne, hr.fit, hr.low, hr.point, hr.into⟩
  obtain ⟨h1, h2, h3, h4⟩ := stride_refines (o := noSort o) (mem := mem) (ok := ok) H
    (Rel := fun _ _ _ _ => True) (s := 0) h0 (r := .mk d ot none none inner) ⟨base.dim, rfl⟩ base.convex
    (fun i hi px hpx => ⟨base.into i hi px hpx, adm_none⟩)
  have e : (loopStride o L (.mk d ot st b inner)).dom = (loopStride (noSort o) L (.mk d ot none none inner)).dom ∧
      (loopStride o L (.mk d ot st b inner)).inner = inner := by
    rw [loopStride, loopStride]
    show _ = Loop.dom (if o.canStride d L = false then _ else match o.listStride _ L with
      | some s => Loop.mk (o.strideLowerBound d L s) ot (some s) none inner
      | none => match strideSearch (inner.map (fun l => o.stride l.dom L)) with
        | none => Loop.mk d ot none none inner
        | some (s, off) => Loop.mk (o.strideLowerBound d L (o.mkStride s off)) ot (some (o.mkStride s off)) none inner) ∧ _
    by_cases hcs : o.canStride d L = false
    · rw [if_pos hcs, if_pos hcs]
      exact ⟨rfl, rfl⟩
    · rw [if_neg hcs, if_neg hcs]
      cases o.listStride (inner.map Loop.dom).reverse L with
      | some q => exact ⟨rfl, rfl⟩
      | none =>
        cases strideSearch (inner.map (fun l => o.stride l.dom L)) with
        | none => exact ⟨rfl, rfl⟩
        | some q => exact ⟨rfl, rfl⟩
  obtain ⟨e1, e2⟩ := e
  refine ⟨?_, ?_, ?_, ?_, ?_, ?_, ?_⟩
  · rw [e1]; exact h1.1
  · rw [e1]; exact h2
  · rw [e2]; exact hr.ne
  · rw [e2]; exact hr.fit
  · rw [e2]; exact hr.low
  · rw [e2]; exact hr.point
  · rw [e2, e1]; exact fun i hi px hpx => (h4 i hi px hpx).1

theorem componentsOf_ne {fol : Loop D S → Loop D S → Bool → Bool} {ls : List (Loop D S)} {cs : List (List (Loop D S))}
    (h : componentsOf fol ls = some cs) : ∀ c ∈ cs, c ≠ [] ∧ ∀ l ∈ c, l ∈ ls := by
  unfold componentsOf at h
  obtain ⟨is, h1, h2, h3, h4, h5⟩ := Verif.Props.Tarjan.C21_components (edge fol ls) ls.length (fun _ => (0, false))
  rw [h1] at h
  dsimp only at h
  obtain rfl := Option.some.inj h
  intro c hc
  rw [List.map_map] at hc
  obtain ⟨i, hi, rfl⟩ := List.mem_map.1 hc
  refine ⟨?_, fun l hl => ?_⟩
  · obtain ⟨k, hk⟩ := List.exists_mem_of_ne_nil _ (h3 i hi).1
    have hk' : k < ls.length := List.mem_range.1 (h2.subset (List.mem_flatten.2 ⟨i, hi, hk⟩))
    intro he
    have := List.filterMap_eq_nil_iff.1 he (k : Int) (List.mem_map_of_mem hk)
    simp [hk'] at this
  · obtain ⟨j, _, hj⟩ := List.mem_filterMap.1 hl
    exact List.mem_of_getElem? hj

theorem step3b_full (G : GenLaws (noSort o) mem) {lo N : Nat} {c : Ctx} {L s : Nat} {sep : Bool} {ls r : List (Loop D S)}
    (h1 : ∀ l ∈ ls, o.dim l.dom = L ∧ o.isConvex l.dom = true ∧ ∀ i ∈ l.inner, Fit o lo N i ∧ L ≤ o.dim i.dom)
    (h : step3b o c L s sep ls = some r) : ∀ q ∈ r, Full o mem lo N L q := by
  unfold step3b at h
  split at h
  · exact absurd h (by simp)
  · rename_i srt hs
    have hm := sort_mem hs
    have hri : ∀ q ∈ restrictInner o srt, Full o mem lo N L q := by
      intro q hq
      unfold restrictInner at hq
      obtain ⟨l, hl, hlq⟩ := List.mem_filterMap.1 hq
      split at hlq
      · exact absurd hlq (by simp)
      · rename_i hne
        obtain rfl := Option.some.inj hlq
        obtain ⟨a1, a2, a3⟩ := h1 l (hm l hl)
        have key : ∀ i ∈ restrictAll o l.inner l.dom, ∃ j ∈ l.inner, o.dim i.dom = o.dim j.dom ∧
            (∃ px, mem i.dom px) ∧ ∀ px, mem i.dom px → mem l.dom px := by
          intro i hi
          obtain ⟨j, hj, hji⟩ := List.mem_filterMap.1 hi
          have hd : (noSort o).dim l.dom ≤ (noSort o).dim j.dom := by
            have := (a3 j hj).2
            show o.dim _ ≤ o.dim _
            omega
          have hsp := restrict_spec G (l := j) (r := i) hd hji
          exact ⟨j, hj, hsp.2.2.2.1, restrict_point G (l := j) (r := i) hji, fun px hpx => ((hsp.2.2.2.2 px).1 hpx).1⟩
        obtain ⟨d, ot, st, b, inner⟩ := l
        refine ⟨a1, a2, fun he => hne (List.isEmpty_iff.2 he), ?_, ?_, ?_, ?_⟩
        · intro i hi
          obtain ⟨j, hj, e, _⟩ := key i hi
          have := (a3 j hj).1
          unfold Fit at this ⊢
          omega
        · intro i hi
          obtain ⟨j, hj, e, _⟩ := key i hi
          have := (a3 j hj).2
          omega
        · intro i hi
          obtain ⟨_, _, _, hp, _⟩ := key i hi
          exact hp
        · intro i hi
          obtain ⟨_, _, _, _, hp⟩ := key i hi
          exact hp
    split at h
    · unfold specialize at h
      split at h
      · exact absurd h (by simp)
      · rename_i ds hds
        obtain rfl := Option.some.inj h
        intro q hq
        obtain ⟨l, hl, rfl⟩ := List.mem_map.1 (List.mem_filter.1 hq).1
        have hfl : Full o mem lo N L l := by
          unfold decomposeInner at hds
          obtain ⟨u, hu, g, hg, hlg⟩ := flatMapM_mem hds hl
          have hfu := hri u hu
          unfold decomposeOne at hg
          split at hg
          · obtain rfl := Option.some.inj hg
            obtain rfl := List.mem_singleton.1 hlg
            exact hfu
          · split at hg
            · exact absurd hg (by simp)
            · rename_i cs hcs
              obtain rfl := Option.some.inj hg
              obtain ⟨cc, hcc, rfl⟩ := List.mem_map.1 hlg
              obtain ⟨n1, n2⟩ := componentsOf_ne hcs cc hcc
              exact ⟨hfu.dim, hfu.convex, n1, fun i hi => hfu.fit i (n2 i hi), fun i hi => hfu.low i (n2 i hi),
                fun i hi => hfu.point i (n2 i hi), fun i hi => hfu.into i (n2 i hi)⟩
        obtain ⟨d, ot, st, b, inner⟩ := l
        match inner, hfl with
        | [i], hfl =>
          have e : specializeOne o (.mk d ot st b [i]) =
              if o.isConvex i.dom = true ∧ o.isConvex (o.project i.dom (o.dim d)) = true then
                Loop.mk (o.project i.dom (o.dim d)) ot st b [i] else .mk d ot st b [i] := rfl
          rw [e]
          by_cases hcv : o.isConvex i.dom = true ∧ o.isConvex (o.project i.dom (o.dim d)) = true
          · rw [if_pos hcv]
            have hlow := hfl.low i (by simp)
            have hdim : o.dim d = L := hfl.dim
            rw [hdim] at hcv ⊢
            refine ⟨G.dim_project _ _ hlow, hcv.2, by simp, hfl.fit, hfl.low, hfl.point, ?_⟩
            intro j hj px hpx
            have hj : j = i := by simpa using hj
            subst hj
            exact G.project _ _ px hlow hpx
          · rw [if_neg hcv]
            exact hfl
        | [], hfl => exact absurd rfl hfl.ne
        | i :: j :: k, hfl => exact hfl
    · obtain rfl := Option.some.inj h
      exact hri

/-! ### The recursion -/

section
variable {size : D → Nat} {PD : D → Prop} {Apart : D → D → Prop} (K : TermLaws o size PD Apart)
  (G : GenLaws (noSort o) mem)
include G

theorem recurse_ends_unroll {c : Ctx} (H : c.opt.strides = true → StrideLaws (noSort o) mem ok)
    {gen : Nat → List (Loop D S) → D → Nat → Nat → Option (List (Loop D S))} {lo N L s : Nat} {b : Bool}
    (hu : 0 < L ∨ (s : Int) < c.opt.firstUnroll) {ls : List (Loop D S)} (hls : ∀ l ∈ ls, Full o mem lo N L l)
    (hg : ∀ g d, (∀ i ∈ g, Fit o lo N i) → g ≠ [] → (∀ i ∈ g, more o i (L + 1) s c.scaldims.length = true) →
      Ends (fun n => gen n g d (L + 1) s)) :
    Ends (fun n => recurse o c (gen n) b L s ls) := by
  have hbelow : ∀ m : Loop D S, (∀ i ∈ m.inner, Fit o lo N i) → Ends (fun n => loopRecurseConst o c (gen n) L s m) := by
    intro m hm
    unfold loopRecurseConst
    refine Ends.map _ ?_
    exact recurseBelow_ends (fun g d h1 h2 h3 => hg g d (fun i hi => hm i (h1 i hi)) h2 h3)
  refine flatMapM_ends ls (fun l hl => ?_)
  have hl := hls l hl
  have hfull : ∃ r, Full o mem lo N L r ∧ recursePrepare o c b L s l =
      if b = false ∧ 0 ≤ c.opt.firstUnroll ∧ c.opt.firstUnroll ≤ L + s then unrolled (unrollOne o L r) else some (.inl r) := by
    unfold recursePrepare
    dsimp only
    by_cases hs : 0 < L ∧ c.opt.strides = true ∧ b = false
    · rw [if_pos hs]
      exact ⟨_, stride_full G (H hs.2.1) hs.1 hl, rfl⟩
    · rw [if_neg hs]
      exact ⟨l, hl, rfl⟩
  obtain ⟨r, hr, hp⟩ := hfull
  simp only [loopRecurse, hp]
  by_cases hc : b = false ∧ 0 ≤ c.opt.firstUnroll ∧ c.opt.firstUnroll ≤ L + s
  · rw [if_pos hc]
    have h0 : 0 < L := by omega
    have hne := unroll_ne G h0 hr
    have hfit := unroll_fit G hr
    match hU : unrollOne o L r, hne, hfit with
    | [m], _, hfit =>
      simp only [unrolled]
      exact hbelow m (hfit m (by simp))
    | a :: a' :: ms, _, hfit =>
      simp only [unrolled]
      exact flatMapM_ends _ (fun m hm => hbelow m (hfit m hm))
  · rw [if_neg hc]
    exact hbelow r hr.fit

include K

theorem generateGeneral_ends_unroll {c : Ctx} (H : c.opt.strides = true → StrideLaws (noSort o) mem ok)
    {gen : Nat → List (Loop D S) → D → Nat → Nat → Option (List (Loop D S))} {lo N L s : Nat}
    (hu : 0 < L ∨ (s : Int) < c.opt.firstUnroll) {B : List (Loop D S)}
    (hB : ∀ b ∈ B, Fit o lo N b ∧ L ≤ o.dim b.dom)
    (hg : ∀ g d, (∀ i ∈ g, Fit o lo N i) → g ≠ [] → (∀ i ∈ g, more o i (L + 1) s c.scaldims.length = true) →
      Ends (fun n => gen n g d (L + 1) s)) :
    Ends (fun n => generateGeneral o n c (gen n) L s (projectAll o B L)) := by
  obtain ⟨⟨r3, sep, const⟩, n₀, e0⟩ := step3_ends K c L s (levels c.opt (projectAll o B L)).1 (projectAll o B L)
  have e3 := e0 n₀ (Nat.le_refl _)
  dsimp only at e3
  have hbody := Verif.Props.LastLevel.step3_body (P := fun i => Fit o lo N i ∧ L ≤ o.dim i.dom) (fun l hl => by
    obtain ⟨b, hb, rfl⟩ := List.mem_map.1 hl
    refine ⟨rfl, fun i hi => ?_⟩
    simp only [project, Loop.inner_mk, List.mem_singleton] at hi
    subst hi
    exact hB _ hb) e3
  have e3' : step3 (noSort o) n₀ c L s (levels c.opt (projectAll o B L)).1 (projectAll (noSort o) B L) = some (r3, sep, const) := by
    rw [step3_noSort]
    exact e3
  have hP := step3_pieces G (fun b hb => (hB b hb).2) e3'
  have hC := step3_convex G e3'
  obtain ⟨r3b, hb⟩ := step3b_some K c L s sep r3
  have h3b := step3b_full G (lo := lo) (N := N) (fun l hl => ⟨(hP.shape l hl).1, hC l hl, (hbody l hl).2⟩) hb
  have h4 : Ends (fun n => step4 o n c (gen n) L s (levels c.opt (projectAll o B L)).2 const r3b) := by
    unfold step4
    split
    · exact recurse_ends_unroll G H hu h3b hg
    · refine flatMapM_ends r3b (fun l _ => ?_)
      obtain ⟨t, n₁, e1⟩ := nest_ends K l.inner l.dom (L + 1)
      refine ⟨[.mk l.dom false none none t], n₁, fun n hn => ?_⟩
      have e1 := e1 n hn
      dsimp only at e1 ⊢
      rw [nestBelow, e1]
  obtain ⟨r4, n₁, e1⟩ := h4
  obtain ⟨r5, n₂, e2⟩ := step5_ends K c L s (levels c.opt (projectAll o B L)).1 (levels c.opt (projectAll o B L)).2 r4
  refine ⟨r5, max n₀ (max n₁ n₂), fun n hn => ?_⟩
  have e0 := e0 n (by omega)
  have e1 := e1 n (by omega)
  have e2 := e2 n (by omega)
  dsimp only at e0 e1 e2 ⊢
  unfold generateGeneral
  dsimp only
  rw [e0]
  dsimp only
  rw [hb]
  dsimp only
  rw [e1]
  exact e2

theorem generateComponents_ends_unroll {c : Ctx} (H : c.opt.strides = true → StrideLaws (noSort o) mem ok)
    {gen : Nat → List (Loop D S) → D → Nat → Nat → Option (List (Loop D S))} {lo N L s : Nat}
    (hu : 0 < L ∨ (s : Int) < c.opt.firstUnroll) {B : List (Loop D S)}
    (hB : ∀ b ∈ B, Fit o lo N b ∧ L ≤ o.dim b.dom)
    (hg : ∀ g d, (∀ i ∈ g, Fit o lo N i) → g ≠ [] → (∀ i ∈ g, more o i (L + 1) s c.scaldims.length = true) →
      Ends (fun n => gen n g d (L + 1) s)) :
    Ends (fun n => generateComponents o n c (gen n) L s (projectAll o B L)) := by
  unfold generateComponents
  split
  · exact generateGeneral_ends_unroll K G H hu hB hg
  · have hpa : projectAll o B L = B.map (Loop.project o L) := rfl
    obtain ⟨cs, hcs⟩ := componentsOf_some (fun a b => innerFollows o (Loop.project o L a) (Loop.project o L b) L s c.scaldims) B
    have hcs' : componentsOf (fun a b => innerFollows o a b L s c.scaldims) (projectAll o B L) =
        some (cs.map (fun k => k.map (Loop.project o L))) := by
      rw [hpa, componentsOf_map (α := Unit), hcs]
      rfl
    obtain ⟨r, n₀, e0⟩ := flatMapM_ends (f := fun n => generateGeneral o n c (gen n) L s)
      (cs.map (fun k => k.map (Loop.project o L))) (fun g hgm => by
        obtain ⟨k, hk, rfl⟩ := List.mem_map.1 hgm
        exact generateGeneral_ends_unroll K G H hu (fun b hb => hB b ((componentsOf_ne hcs k hk).2 b hb)) hg)
    refine ⟨combine o r, n₀, fun n hn => ?_⟩
    have e0 := e0 n hn
    dsimp only at e0 ⊢
    rw [hcs']
    dsimp only
    rw [e0]

theorem generateRestricted_ends_unroll {c : Ctx} (W : WFScal c.scaldims) (hu : 0 < c.opt.firstUnroll)
    (H : c.opt.strides = true → StrideLaws (noSort o) mem ok) {N : Nat} (hN : c.scaldims.length ≤ N) :
    ∀ (m L s : Nat), (N + 1 - L) + (N + 1 - s) ≤ m → L ≤ N → Pos (isScal c.scaldims) L s →
    ∀ (orStop : Bool) (ls : List (Loop D S)) (ctx : D),
    (∀ l ∈ ls, Fit o ((isScal c.scaldims).count false) N l) → (∀ l ∈ ls, more o l L s c.scaldims.length = true) →
    Ends (fun n => generateRestricted o c n orStop ls ctx L s) := by
  intro m
  induction m with
  | zero => intro L s h hL; omega
  | succ m ih =>
    intro L s hm hL hp orStop ls ctx hls hmo
    refine Ends.succ ?_
    simp only [generateRestricted]
    split
    · exact Ends.const _
    · split
      · rename_i hc
        obtain ⟨hk, hrun⟩ := isRun_of_const W hc
        have hp' := pos_scal hrun.1 hp hrun.2.1
        have hr := runLength_pos hc
        refine generateScalar_ends K (gen := fun n g sc => generateRestricted o c n false g ctx L sc) ?_
        intro g hg hgm
        exact ih L _ (by omega) hL hp' false g ctx (fun l hl => hls l (hg l hl)) hgm
      · rename_i hc
        have hc : levelIsConstant L s (isScal c.scaldims) = false := by simpa using hc
        refine generateComponents_ends_unroll K G (N := N) (lo := (isScal c.scaldims).count false)
          (gen := fun n g d lev sc => generateRestricted o c n true g d lev sc) H ?_ ?_ ?_
        · rcases hp with ⟨_, h⟩ | ⟨h, _⟩
          · right; omega
          · left; exact h
        · intro b hb
          exact ⟨hls b hb, more_dim hp hc (hls b hb).1 (hmo b hb)⟩
        · intro g d h1 h2 h3
          obtain ⟨i, hi⟩ := List.exists_mem_of_ne_nil _ h2
          have hmore := h3 i hi
          have h4 := (h1 i hi).2
          simp only [more, Bool.or_eq_true, decide_eq_true_eq] at hmore
          exact ih (L + 1) s (by omega) (by omega) (pos_next hp hc) true g d h1 h3

/-- **C70**, with `-first-unroll`.  Code generation ends, and the first of the unrolled loops always exists where
    `loop_recurse` reads its successor, for all statements that have the dimensions of the scattering.  The emptiness of
    sets is decided exactly, and an unrolled loop covers all the values of its iterator (`GenLaws`); `-strides` loses no
    iteration (`StrideLaws`). -/
theorem C70_unroll_partial {c : Ctx} (W : WFScal c.scaldims) (hu : 0 < c.opt.firstUnroll)
    (H : c.opt.strides = true → StrideLaws (noSort o) mem ok) (B : List (Loop D S)) (ctx : D) (hctx : o.dim ctx = 0)
    (hB : ∀ b ∈ B, (isScal c.scaldims).count false ≤ o.dim b.dom) :
    Ends (fun n => generate o c n B ctx 0 0) := by
  unfold generate
  split
  · exact Ends.const _
  · let N := (B.map (fun b => o.dim b.dom)).sum + o.dim ctx + c.scaldims.length
    refine generateRestricted_ends_unroll K G W hu H (N := N) (by omega) _ 0 0 (Nat.le_refl _) (by omega) (Or.inl ⟨rfl, rfl⟩)
      true _ ctx ?_ (fun l _ => by simp [more])
    have h1 := restrictAll_small K (N := N) (ls := B) (ctx := ctx) (fun b hb => by
      have := List.single_le_sum (l := B.map (fun b => o.dim b.dom)) (by simp) _ (List.mem_map_of_mem hb)
      omega) (by omega)
    intro l hl
    refine ⟨?_, h1 l hl⟩
    obtain ⟨b, hb, hbl⟩ := List.mem_filterMap.1 hl
    have e : o.dim l.dom = o.dim b.dom := (restrict_spec G (l := b) (r := l) (by
      show o.dim _ ≤ o.dim _
      omega) hbl).2.2.2.1
    rw [e]
    exact hB b hb

end

/-! ### Example -/

section
open Verif.BoxDom Verif.Props.Generate

theorem lawsN : GenLaws (noSort opsT) BoxDom.mem :=
  { BoxDom.laws with sort := fun _ _ _ _ h => by simp [noSort] at h }

theorem lawsNS : StrideLaws (noSort opsT) BoxDom.mem BoxDom.strideOk := { box_strides with }

/-- Unrolling from the first level on, with strides. -/
def exCU : Ctx := ⟨{ firstUnroll := 1, strides := true }, []⟩

/-- The generation ends; the loop over 1, 2, 3 becomes three copies. -/
example : Ends (fun n => generate opsT exCU n [stmt 1 [] (box 1 [[1], [2], [3]])] (box 0 [[]]) 0 0) ∧
    ((generate opsT exCU 20 [stmt 1 [] (box 1 [[1], [2], [3]])] (box 0 [[]]) 0 0).map
      (fun T => T.map (fun t => t.inner.length))) = some [3] :=
  ⟨C70_unroll_partial lawsT lawsN (by intro i n hi; simp [exCU] at hi) (by decide) (fun _ => lawsNS) _ _ rfl (by decide),
    by decide +kernel⟩

end

end Verif.Props.Terminates
