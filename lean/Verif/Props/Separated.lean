import Verif.Props.OneCopy
import Verif.Lemmas.GenShape

/-!
# C69: separated loops have no idle iterations

From the level given by `-f` on, every statement inside a loop is executed in each iteration of that loop.
-/

namespace Verif.Props.Separated
open Verif.Loop Verif.Gen Verif.Props.OneCopy Verif.ScalarSort Verif.Props.Separate

variable {D S C Par : Type} {o : DomOps D S C} {mem : D → Par × Pt → Prop}

/-! ## Specification -/

/-- `In L l M m`: in the tree `l` of level `L` there is the loop `m` at level `M`. -/
inductive In : Nat → Loop D S → Nat → Loop D S → Prop
  | here {L : Nat} {l : Loop D S} : In L l L l
  | there {L M : Nat} {l i m : Loop D S} : i ∈ l.inner → In (L + 1) i M m → In L l M m

/-- The position in the scattering (from 1) of the loop of level `L`, if `flags` are its scalar positions. -/
def place : List Bool → Nat → Nat
  | _, 0 => 0
  | [], L + 1 => L + 1
  | true :: fs, L + 1 => place fs (L + 1) + 1
  | false :: fs, L + 1 => place fs L + 1

/-- For some values of the parameters and the outer iterators, the iterator of level `L` has two values. -/
def Varies (mem : D → Par × Pt → Prop) (L : Nat) (d : D) : Prop :=
  ∃ p x y, mem d (p, x) ∧ mem d (p, y) ∧ Agree L x y ∧ x (L - 1) ≠ y (L - 1)

/-- In each iteration of the loop there is an instance of each of its statements; `src b` are the instances of the
    statements of the block `b`. -/
def Busy (mem : D → Par × Pt → Prop) (src : Block → Par × Pt → Prop) (L : Nat) (l : Loop D S) : Prop :=
  ∀ b ∈ blocksOf l, ∀ p x, mem l.dom (p, x) → ∃ y, Agree (L + 1) x y ∧ src b (p, y)

/-- What is assumed about the polyhedral operations besides `GenLaws`: projections are exact, the lower bound of a
    strided loop is only raised, a constant iterator has that value, also in the hull. -/
structure ExactLaws (o : DomOps D S C) (mem : D → Par × Pt → Prop) : Prop where
  project : ∀ d L p x, L ≤ o.dim d → mem (o.project d L) (p, x) → ∃ y, Agree (L + 1) x y ∧ mem d (p, y)
  lower : ∀ d L s px, mem (o.strideLowerBound d L s) px → mem d px
  const : ∀ d i c, o.lazyIsConstant d i = some c → ∀ px : Par × Pt, mem d px → px.2 i = c
  hull : ∀ d i c, (∀ px : Par × Pt, mem d px → px.2 i = c) → ∀ px : Par × Pt, mem (o.simpleConvex d) px → px.2 i = c

/-- The options: separation from level `f` on, no `-l`, no levels per statement, no `-stop`, no backtracking, no
    unrolling. -/
structure Sep (opt : Options) : Prop where
  f : 0 < opt.f
  l : opt.l < 0
  fs : opt.fs = none ∨ opt.ls = none
  stop : opt.stop < 0
  backtrack : opt.backtrack = false
  unroll : opt.firstUnroll < 0

/-! ## Proofs -/

theorem place_eq : ∀ (flags : List Bool) (L s : Nat), Pos flags L s → levelIsConstant L s flags = false →
    place flags L = L + s
  | flags, 0, s, hp, _ => by
    rcases hp with ⟨_, rfl⟩ | ⟨h, _⟩
    · simp [place]
    · omega
  | [], L + 1, s, hp, _ => by
    rcases hp with ⟨h, _⟩ | ⟨_, h⟩
    · omega
    · simp only [List.take_nil, List.count_nil] at h
      simp [place, ← h]
  | true :: fs, L + 1, s, hp, hc => by
    rcases hp with ⟨h, _⟩ | ⟨_, h⟩
    · omega
    · cases hn : L + s with
      | zero =>
        have h1 : L = 0 := by omega
        have h2 : s = 0 := by omega
        subst h1 h2
        simp [levelIsConstant] at hc
      | succ n =>
        rw [show L + 1 + s - 1 = n + 1 by omega, List.take_succ_cons, List.count_cons_self] at h
        rw [place, place_eq fs (L + 1) (s - 1) (Or.inr ⟨by omega, ?_⟩) ?_]
        · omega
        · rw [show L + 1 + (s - 1) - 1 = n by omega]; omega
        · unfold levelIsConstant at hc ⊢
          simp only [Bool.and_eq_false_iff, decide_eq_false_iff_not, List.length_cons] at hc ⊢
          rcases hc with (hc | hc) | hc
          · omega
          · left; right; omega
          · right
            rw [show L + 1 + s - 1 = n + 1 by omega, List.getD_cons_succ] at hc
            rw [show L + 1 + (s - 1) - 1 = n by omega]
            exact hc
  | false :: fs, L + 1, s, hp, hc => by
    rcases hp with ⟨h, _⟩ | ⟨_, h⟩
    · omega
    · cases L with
      | zero =>
        cases s with
        | zero => simp [place]
        | succ s =>
          exfalso
          rw [show 0 + 1 + (s + 1) - 1 = s + 1 by omega, List.take_succ_cons, List.count_cons_of_ne (by simp)] at h
          have h1 := List.count_le_length (a := true) (l := fs.take s)
          rw [List.length_take] at h1
          omega
      | succ L =>
        rw [show L + 1 + 1 + s - 1 = (L + s) + 1 by omega, List.take_succ_cons, List.count_cons_of_ne (by simp)] at h
        rw [place, place_eq fs (L + 1) s (Or.inr ⟨by omega, ?_⟩) ?_]
        · omega
        · rw [show L + 1 + s - 1 = L + s by omega]; exact h
        · unfold levelIsConstant at hc ⊢
          simp only [Bool.and_eq_false_iff, decide_eq_false_iff_not, List.length_cons] at hc ⊢
          rcases hc with (hc | hc) | hc
          · omega
          · left; right; omega
          · right
            rw [show L + 1 + 1 + s - 1 = (L + s) + 1 by omega, List.getD_cons_succ] at hc
            rw [show L + 1 + s - 1 = L + s by omega]
            exact hc

theorem Varies.mono {L : Nat} {d e : D} (h : ∀ px, mem d px → mem e px) : Varies mem L d → Varies mem L e :=
  fun ⟨p, x, y, h1, h2, h3⟩ => ⟨p, x, y, h _ h1, h _ h2, h3⟩

/-- A statement. -/
structure Leaf (o : DomOps D S C) (mem : D → Par × Pt → Prop) (src : Block → Par × Pt → Prop) (flags : List Bool)
    (i : Loop D S) : Prop where
  inner : i.inner = []
  dims : flags.count false ≤ o.dim i.dom
  block : ∀ b, i.block = some b → ∀ px, mem i.dom px → src b px

/-- A tree in which all loops with several iterations are busy. -/
inductive Good (mem : D → Par × Pt → Prop) (src : Block → Par × Pt → Prop) (f : Int) (flags : List Bool) :
    Nat → Loop D S → Prop
  | mk {L : Nat} {l : Loop D S} : (f ≤ (place flags L : Int) → Varies mem L l.dom → Busy mem src L l) →
      (∀ i ∈ l.inner, Good mem src f flags (L + 1) i) → Good mem src f flags L l

theorem Good.all {src : Block → Par × Pt → Prop} {f : Int} {flags : List Bool} {L M : Nat} {l m : Loop D S}
    (h : Good mem src f flags L l) (hi : In L l M m) :
    f ≤ (place flags M : Int) → Varies mem M m.dom → Busy mem src M m := by
  induction hi with
  | here => cases h with | mk h _ => exact h
  | there hm _ ih => cases h with | mk _ h => exact ih (h _ hm)

variable {src : Block → Par × Pt → Prop} {flags : List Bool}

theorem Leaf.good (h : Leaf o mem src flags i) (f : Int) (L : Nat) : Good mem src f flags L i := by
  refine .mk (fun _ _ b hb p x hx => ⟨x, Agree.refl _ _, ?_⟩) (by simp [h.inner])
  rw [blocksOf_eq, h.inner] at hb
  simp only [blocksIn, List.append_nil, Option.mem_toList] at hb
  exact h.block b hb _ hx

/-- Between step 3 and the recursion. -/
structure Mid (o : DomOps D S C) (mem : D → Par × Pt → Prop) (src : Block → Par × Pt → Prop) (flags : List Bool)
    (f : Int) (L : Nat) (B : List (Loop D S)) (q : Loop D S) : Prop where
  block : q.block = none
  leaf : ∀ i ∈ q.inner, Leaf o mem src flags i ∧ L ≤ o.dim i.dom ∧ ∃ b ∈ B, b.block = i.block
  busy : f ≤ (place flags L : Int) → Varies mem L q.dom → ∀ i ∈ q.inner, ∀ p x, mem q.dom (p, x) →
    ∃ y, Agree (L + 1) x y ∧ mem i.dom (p, y)

/-- What is asked of the statements handed to the generation. -/
structure Pre (o : DomOps D S C) (mem : D → Par × Pt → Prop) (src : Block → Par × Pt → Prop) (scaldims : List Nat)
    (L s : Nat) (B : List (Loop D S)) : Prop where
  leaf : ∀ b ∈ B, Leaf o mem src (isScal scaldims) b
  more : ∀ b ∈ B, Loop.more o b L s scaldims.length = true
  pos : Pos (isScal scaldims) L s

/-- The result of a generation step. -/
def Res (mem : D → Par × Pt → Prop) (src : Block → Par × Pt → Prop) (f : Int) (flags : List Bool) (L : Nat)
    (B T : List (Loop D S)) : Prop :=
  ∀ t ∈ T, Good mem src f flags L t ∧ ∀ b ∈ blocksOf t, ∃ l ∈ B, l.block = some b

theorem const_single (E : ExactLaws o mem) (G : GenLaws o mem) {L : Nat} {ls : List (Loop D S)} {q : Loop D S}
    (h : isConstant o L ls = true) (hq : q ∈ constant o ls) : ¬ Varies mem L q.dom := by
  cases ls with
  | nil => simp [constant] at hq
  | cons l ls =>
    simp only [constant, List.mem_singleton] at hq
    subst hq
    simp only [isConstant] at h
    split at h
    · simp at h
    · rename_i c hc
      have hu : ∀ (ls : List (Loop D S)) (d : D), (∀ px : Par × Pt, mem d px → px.2 (L - 1) = c) →
          (∀ m ∈ ls, ∀ px : Par × Pt, mem m.dom px → px.2 (L - 1) = c) →
          ∀ px : Par × Pt, mem (unionDom o d ls) px → px.2 (L - 1) = c := by
        intro ls
        induction ls with
        | nil => intro d h1 _ px h2; exact h1 px h2
        | cons m ls ih =>
          intro d h1 h2 px h3
          rw [unionDom] at h3
          refine ih (o.union d m.dom) (fun px h => ?_) (fun k hk => h2 k (by simp [hk])) px h3
          rcases (G.union _ _ _).1 h with h | h
          · exact h1 px h
          · exact h2 m (by simp) px h
      have key := E.hull _ (L - 1) c (hu ls l.dom (E.const _ _ _ hc) (fun m hm => by
        rw [List.all_eq_true] at h
        exact E.const _ _ _ (by simpa using h m hm)))
      rintro ⟨p, x, y, h1, h2, _, h4⟩
      exact h4 ((key _ h1).trans (key _ h2).symm)

theorem step3_mid (G : GenLaws o mem) (E : ExactLaws o mem) {L s fuel : Nat} {c : Ctx} {B r : List (Loop D S)}
    {sep cst : Bool} (hp : place (isScal c.scaldims) L = L + s) (hf : 0 < c.opt.f)
    (hB : ∀ b ∈ B, Leaf o mem src (isScal c.scaldims) b ∧ L ≤ o.dim b.dom)
    (h : step3 o fuel c L s c.opt.f (projectAll o B L) = some (r, sep, cst)) :
    ∀ q ∈ r, o.dim q.dom = L ∧ Mid o mem src (isScal c.scaldims) c.opt.f L B q := by
  have hP := step3_pieces G (fun b hb => (hB b hb).2) h
  have hin : ∀ q ∈ r, ∀ i ∈ q.inner, i ∈ B := by
    intro q hq i hi
    unfold step3 at h
    split at h
    · simp only [Option.some.injEq, Prod.mk.injEq] at h
      rw [← h.1] at hq
      rw [Verif.Props.LoopOps.constant_inner q hq] at hi
      exact hi
    · split at h
      · rw [Option.map_eq_some_iff] at h
        obtain ⟨r', h1, h2⟩ := h
        simp only [Prod.mk.injEq] at h2
        rw [← h2.1] at hq
        rw [Verif.Props.LoopOps.merge_inner h1 q hq] at hi
        exact hi
      · rw [Option.map_eq_some_iff] at h
        obtain ⟨r', h1, h2⟩ := h
        simp only [Prod.mk.injEq] at h2
        rw [← h2.1] at hq
        refine separate_inner (P := fun i => i ∈ B) G ?_ h1 q hq i hi
        intro l hl i hi
        obtain ⟨b, hb, rfl⟩ := List.mem_map.1 hl
        simp only [Loop.project, Loop.inner_mk, List.mem_singleton] at hi
        rw [hi]; exact hb
  intro q hq
  refine ⟨(hP.shape q hq).1, (hP.shape q hq).2.1, fun i hi => ⟨(hB i (hin q hq i hi)).1, (hB i (hin q hq i hi)).2, i,
    hin q hq i hi, rfl⟩, ?_⟩
  intro hfl hv i hi p x hx
  unfold step3 at h
  split at h
  · rename_i hc
    simp only [Option.some.injEq, Prod.mk.injEq] at h
    rw [← h.1] at hq
    exact absurd hv (const_single E G hc.2 hq)
  · split at h
    · exfalso
      rw [hp] at hfl
      push_cast at hfl
      omega
    · rw [Option.map_eq_some_iff] at h
      obtain ⟨r', h1, h2⟩ := h
      simp only [Prod.mk.injEq] at h2
      rw [← h2.1] at hq
      have h3 := (C17_separate G.toSetLaws _ _ _ h1).2.2.2.2 q hq _ hx
      rw [h3] at hi
      unfold flow at hi
      obtain ⟨l, hl, hli⟩ := List.mem_flatMap.1 hi
      split at hli
      · rename_i hm
        obtain ⟨b, hb, rfl⟩ := List.mem_map.1 hl
        simp only [Loop.project, Loop.inner_mk, List.mem_singleton] at hli
        subst hli
        simp only [Loop.project, Loop.dom_mk] at hm
        split at hm
        · exact ⟨x, Agree.refl _ _, hm⟩
        · exact E.project _ _ _ _ (hB i hb).2 hm
      · simp at hli

theorem restrictInner_mid (G : GenLaws o mem) {f : Int} {L : Nat} {B R : List (Loop D S)}
    (hR : ∀ q ∈ R, o.dim q.dom = L ∧ Mid o mem src flags f L B q) :
    ∀ q ∈ restrictInner o R, o.dim q.dom = L ∧ Mid o mem src flags f L B q := by
  intro t ht
  unfold restrictInner at ht
  rw [List.mem_filterMap] at ht
  obtain ⟨r, hr, h⟩ := ht
  split at h
  · exact absurd h (by simp)
  obtain rfl := Option.some.inj h
  obtain ⟨hd, hm⟩ := hR r hr
  have hs := restrictAll_spec G r.dom r.inner (fun b hb => by rw [hd]; exact (hm.leaf b hb).2.1)
  refine ⟨hd, hm.block, ?_, ?_⟩
  · intro i hi
    rw [Loop.inner_setInner] at hi
    obtain ⟨b, hb, h1, h2, h3, h4⟩ := hs.sound i hi
    obtain ⟨k1, k2, b', hb', k3⟩ := hm.leaf b hb
    refine ⟨⟨h3 ▸ k1.inner, h2 ▸ k1.dims, fun c hc px hx => k1.block c (h1.trans hc) px ((h4 px).1 hx).2⟩, h2 ▸ k2,
      b', hb', k3.trans h1⟩
  · intro hf hv i hi p x hx
    rw [Loop.inner_setInner] at hi
    rw [Loop.dom_setInner] at hv hx
    obtain ⟨b, hb, h1, h2, h3, h4⟩ := hs.sound i hi
    obtain ⟨y, hy, hby⟩ := hm.busy hf hv b hb p x hx
    exact ⟨y, hy, (h4 _).2 ⟨(agree_dim G (Nat.le_of_eq hd) hy).1 hx, hby⟩⟩

theorem step3b_mid (G : GenLaws o mem) (E : ExactLaws o mem) {c : Ctx} {f : Int} {L s : Nat}
    {B Q R : List (Loop D S)} {sep : Bool} (hQ : ∀ q ∈ Q, o.dim q.dom = L ∧ Mid o mem src flags f L B q)
    (h : step3b o c L s sep Q = some R) : ∀ q ∈ R, Mid o mem src flags f L B q := by
  unfold step3b at h
  split at h
  · exact absurd h (by simp)
  · rename_i r hr
    have h1 := restrictInner_mid G (fun q hq => hQ q (sort_mem hr q hq))
    split at h
    · unfold specialize at h
      split at h
      · exact absurd h (by simp)
      · rename_i ds hds
        obtain rfl := Option.some.inj h
        have h2 : ∀ q ∈ ds, o.dim q.dom = L ∧ Mid o mem src flags f L B q := by
          intro q hq
          unfold decomposeInner at hds
          obtain ⟨l, hl, g, hg, hqg⟩ := flatMapM_mem hds hq
          have hl := h1 l hl
          unfold decomposeOne at hg
          split at hg
          · obtain rfl := Option.some.inj hg
            rw [List.mem_singleton.1 hqg]
            exact hl
          · split at hg
            · exact absurd hg (by simp)
            · rename_i cs hcs
              obtain rfl := Option.some.inj hg
              obtain ⟨k, hk, rfl⟩ := List.mem_map.1 hqg
              have hk := ((componentsOf_spec (α := Unit) hcs).1 k hk).subset
              exact ⟨hl.1, hl.2.block, fun i hi => hl.2.leaf i (hk hi), fun a b i hi => hl.2.busy a b i (hk hi)⟩
        intro q hq
        unfold removeEmpty at hq
        obtain ⟨l, hl, rfl⟩ := List.mem_map.1 (List.mem_filter.1 hq).1
        obtain ⟨hd, hm⟩ := h2 l hl
        unfold specializeOne
        split
        · rename_i i hi
          split
          · refine ⟨hm.block, hm.leaf, fun _ _ j hj p x hx => ?_⟩
            rw [Loop.inner_setDom, hi, List.mem_singleton] at hj
            subst hj
            rw [Loop.dom_setDom, hd] at hx
            exact E.project _ _ _ _ (hm.leaf j (by rw [hi]; simp)).2.1 hx
          · exact hm
        · exact hm
    · obtain rfl := Option.some.inj h
      exact fun q hq => (h1 q hq).2

theorem Res.mono {f : Int} {L : Nat} {A B T : List (Loop D S)} (h : Res mem src f flags L A T)
    (hs : ∀ a ∈ A, a ∈ B) : Res mem src f flags L B T := fun t ht =>
  ⟨(h t ht).1, fun b hb => by
    obtain ⟨l, hl, e⟩ := (h t ht).2 b hb
    exact ⟨l, hs l hl, e⟩⟩

theorem Res.append {f : Int} {L : Nat} {B T U : List (Loop D S)} (h : Res mem src f flags L B T)
    (k : Res mem src f flags L B U) : Res mem src f flags L B (T ++ U) := fun t ht =>
  (List.mem_append.1 ht).elim (h t) (k t)

theorem Leaf.res {f : Int} {L : Nat} {B : List (Loop D S)} (h : ∀ b ∈ B, Leaf o mem src flags b) :
    Res mem src f flags L B B := fun t ht => ⟨(h t ht).good f L, fun b hb => by
  rw [blocksOf_eq, (h t ht).inner] at hb
  simp only [blocksIn, List.append_nil, Option.mem_toList] at hb
  exact ⟨t, ht, hb⟩⟩

theorem recurseInner_res {f : Int} {scaldims : List Nat} {L s : Nat} (hp : Pos (isScal scaldims) L s)
    {gen : List (Loop D S) → Option (List (Loop D S))}
    (hgen : ∀ B T, Pre o mem src scaldims L s B → gen B = some T → Res mem src f (isScal scaldims) L B T) :
    ∀ (n : Nat) (B T : List (Loop D S)), (∀ b ∈ B, Leaf o mem src (isScal scaldims) b) →
      recurseInner o gen L s scaldims.length n B = some T → Res mem src f (isScal scaldims) L B T := by
  intro n
  induction n with
  | zero =>
    intro B T hB h
    cases B with
    | nil =>
      simp only [recurseInner, Option.some.injEq] at h
      subst h
      intro t ht
      simp at ht
    | cons b B => simp [recurseInner] at h
  | succ n ih =>
    intro B T hB h
    cases B with
    | nil =>
      simp only [recurseInner, Option.some.injEq] at h
      subst h
      intro t ht
      simp at ht
    | cons l ls =>
      rw [recurseInner] at h
      by_cases hm : more o l L s scaldims.length = true
      · rw [if_pos hm] at h
        obtain ⟨g1, g2, _⟩ := span_more o L s scaldims.length (l :: ls)
        generalize (spanMore o L s scaldims.length (l :: ls)).1 = A at h g1 g2
        generalize (spanMore o L s scaldims.length (l :: ls)).2 = R at h g1
        split at h
        · exact absurd h (by simp)
        · rename_i r hr
          split at h
          · exact absurd h (by simp)
          · rename_i rs hrs
            obtain rfl := Option.some.inj h
            rw [← g1] at hB ⊢
            have hA := hgen A r ⟨fun b hb => hB b (by simp [hb]), g2, hp⟩ hr
            exact (hA.mono (by simp +contextual)).append
              ((ih R rs (fun b hb => hB b (by simp [hb])) hrs).mono (by simp +contextual))
      · rw [if_neg hm] at h
        split at h
        · exact absurd h (by simp)
        · rename_i rs hrs
          obtain rfl := Option.some.inj h
          have h1 : Res mem src f (isScal scaldims) L [l] [l] := Leaf.res (fun b hb => hB b (by simp at hb; simp [hb]))
          exact (h1.mono (by simp)).append (U := rs)
            ((ih ls rs (fun b hb => hB b (by simp [hb])) hrs).mono (by simp +contextual))

theorem recurse_res (E : ExactLaws o mem) {c : Ctx} (hu : c.opt.firstUnroll < 0) {f : Int} {L s : Nat}
    (hp : Pos (isScal c.scaldims) (L + 1) s)
    {gen : List (Loop D S) → D → Nat → Nat → Option (List (Loop D S))}
    (hgen : ∀ B d T, Pre o mem src c.scaldims (L + 1) s B → gen B d (L + 1) s = some T →
      Res mem src f (isScal c.scaldims) (L + 1) B T)
    {B R T : List (Loop D S)} {cst : Bool} (hR : ∀ q ∈ R, Mid o mem src (isScal c.scaldims) f L B q)
    (h : recurse o c gen cst L s R = some T) : Res mem src f (isScal c.scaldims) L B T := by
  intro t ht
  unfold recurse at h
  obtain ⟨r, hr, g, hg, htg⟩ := flatMapM_mem h ht
  have hr := hR r hr
  unfold loopRecurse recursePrepare at hg
  dsimp only at hg
  rw [if_neg (by omega)] at hg
  have hr' : Mid o mem src (isScal c.scaldims) f L B
      (if 0 < L ∧ c.opt.strides = true ∧ cst = false then loopStride o L r else r) := by
    split
    · obtain ⟨d, ot, st, b, inner⟩ := r
      have hslb : ∀ s st', Mid o mem src (isScal c.scaldims) f L B (.mk (o.strideLowerBound d L s) ot st' b inner) :=
        fun s _ => ⟨hr.block, hr.leaf, fun h1 h2 i hi p x hx =>
          hr.busy h1 (h2.mono (E.lower d L s)) i hi p x (E.lower d L s _ hx)⟩
      rw [loopStride]
      split
      · exact hr
      · split
        · exact hslb _ _
        · split
          · exact hr
          · exact hslb _ _
    · exact hr
  generalize (if 0 < L ∧ c.opt.strides = true ∧ cst = false then loopStride o L r else r) = q at hg hr'
  dsimp only at hg
  unfold loopRecurseConst at hg
  rw [Option.map_eq_some_iff] at hg
  obtain ⟨u, hu, rfl⟩ := hg
  rw [List.mem_singleton] at htg
  subst htg
  obtain ⟨d, ot, st, b, inner⟩ := q
  have hb := hr'.block
  rw [Loop.block_mk] at hb
  subst hb
  have hot : ∃ ot', (if 0 < L ∧ c.opt.otl = true then loopOtl o L (.mk d ot st none inner)
      else Loop.mk d ot st none inner) = .mk d ot' st none inner := by
    split
    · exact ⟨_, rfl⟩
    · exact ⟨_, rfl⟩
  obtain ⟨ot', hot⟩ := hot
  unfold recurseBelow at hu
  rw [hot] at hu
  dsimp only [Loop.stride_mk, Loop.inner_mk, Loop.dom_mk] at hu
  have fin : ∀ dd into, recurseInner o (fun ls => gen ls dd (L + 1) s) (L + 1) s
      c.scaldims.length inner.length inner = some into →
      Good mem src f (isScal c.scaldims) L (.mk d ot' st none into) ∧
        ∀ b ∈ blocksOf (.mk d ot' st none into), ∃ l ∈ B, l.block = some b := by
    intro dd into hin
    have hi := recurseInner_res hp (fun B' T' hB' hT' => hgen B' dd T' hB' hT') _ _ _
      (fun l hl => (hr'.leaf l hl).1) hin
    have hb : ∀ b ∈ blocksOf (Loop.mk d ot' st none into), ∃ i ∈ inner, i.block = some b := by
      intro b hb
      rw [blocksOf_eq, Loop.block_mk, Loop.inner_mk, blocksIn_eq] at hb
      simp only [Option.toList_none, List.nil_append, List.mem_flatMap] at hb
      obtain ⟨t, ht, hbt⟩ := hb
      exact (hi t ht).2 b hbt
    refine ⟨.mk ?_ (fun i hii => (hi i hii).1), ?_⟩
    · intro h1 h2 b hbb p x hx
      obtain ⟨i, hii, e⟩ := hb b hbb
      obtain ⟨y, hy, hm⟩ := hr'.busy h1 h2 i hii p x hx
      exact ⟨y, hy, (hr'.leaf i hii).1.block b e _ hm⟩
    · intro b hbb
      obtain ⟨i, hii, e⟩ := hb b hbb
      obtain ⟨l, hl, e'⟩ := (hr'.leaf i hii).2.2
      exact ⟨l, hl, e'.trans e⟩
  cases st with
  | none =>
    split at hu
    · exact absurd hu (by simp)
    · rename_i into hin
      obtain rfl := Option.some.inj hu
      exact fin _ _ hin
  | some st =>
    split at hu
    · exact absurd hu (by simp)
    · rename_i into hin
      obtain rfl := Option.some.inj hu
      exact fin _ _ hin

theorem propagate_res (G : GenLaws o mem) {f : Int} {L : Nat} {B T : List (Loop D S)}
    (h : Res mem src f flags L B T) : Res mem src f flags L B (propagate o T) := by
  intro t ht
  unfold propagate at ht
  obtain ⟨u, hu, rfl⟩ := List.mem_map.1 ht
  have hu := h u hu
  unfold propagateOne
  split
  · rename_i i hi
    split
    · have hsub : ∀ px, mem (o.inter (o.project i.dom (o.dim u.dom)) u.dom) px → mem u.dom px :=
        fun px h => ((G.inter _ _ _).1 h).2
      have e : ∀ d, blocksOf (u.setDom d) = blocksOf u := fun d => by
        rw [blocksOf_eq, blocksOf_eq]; rfl
      obtain ⟨hg, hb⟩ := hu
      cases hg with
      | mk k1 k2 =>
        refine ⟨.mk ?_ (by rw [Loop.inner_setDom]; exact k2), by rw [e]; exact hb⟩
        intro h1 h2 b hbb p x hx
        rw [Loop.dom_setDom] at h2 hx
        rw [e] at hbb
        exact k1 h1 (h2.mono hsub) b hbb p x (hsub _ hx)
    · exact hu
  · exact hu

theorem combineFrom_res (G : GenLaws o mem) {f : Int} {L : Nat} {B : List (Loop D S)} :
    ∀ (ls : List (Loop D S)) (a : Loop D S), Res mem src f flags L B (a :: ls) →
    Res mem src f flags L B (combineFrom o a ls)
  | [], a, h => by
    rw [combineFrom]
    exact h
  | b :: ls, a, h => by
    rw [combineFrom]
    have ha := h a (by simp)
    have hb := h b (by simp)
    split
    · rename_i he
      have heq := G.lazyEqual _ _ he
      refine combineFrom_res G ls _ (fun t ht => ?_)
      rcases List.mem_cons.1 ht with rfl | ht
      · obtain ⟨ga, ba⟩ := ha
        obtain ⟨gb, bb⟩ := hb
        have hbl : ∀ c ∈ blocksOf (a.setInner (a.inner ++ b.inner)), c ∈ blocksOf a ∨ c ∈ blocksOf b := by
          intro c hc
          rw [blocksOf_eq, Loop.inner_setInner, blocksIn_append] at hc
          rw [blocksOf_eq, blocksOf_eq]
          simp only [Loop.block_setInner, List.mem_append] at hc ⊢
          tauto
        cases ga with
        | mk a1 a2 =>
        cases gb with
        | mk b1 b2 =>
          refine ⟨.mk ?_ ?_, fun c hc => (hbl c hc).elim (ba c) (bb c)⟩
          · intro h1 h2 c hc p x hx
            rw [Loop.dom_setInner] at h2 hx
            rcases hbl c hc with hc | hc
            · exact a1 h1 h2 c hc p x hx
            · exact b1 h1 (h2.mono (fun px h => (heq px).1 h)) c hc p x ((heq _).1 hx)
          · intro i hi
            rw [Loop.inner_setInner, List.mem_append] at hi
            exact hi.elim (a2 i) (b2 i)
      · exact h t (by simp [ht])
    · intro t ht
      rcases List.mem_cons.1 ht with rfl | ht
      · exact ha
      · exact combineFrom_res G ls b (fun t ht => h t (List.mem_cons_of_mem _ ht)) t ht

theorem levels_eq {opt : Options} (h : Sep opt) (ls : List (Loop D S)) : levels opt ls = (opt.f, opt.l) := by
  unfold levels
  rw [loopsGetFl_none h.fs ls]
  simp

theorem generateGeneral_res (G : GenLaws o mem) (E : ExactLaws o mem) {c : Ctx} (hopt : Sep c.opt) {L s : Nat}
    (hc : levelIsConstant L s (isScal c.scaldims) = false)
    {gen : List (Loop D S) → D → Nat → Nat → Option (List (Loop D S))}
    (hgen : ∀ B d T, Pre o mem src c.scaldims (L + 1) s B → gen B d (L + 1) s = some T →
      Res mem src c.opt.f (isScal c.scaldims) (L + 1) B T)
    {fuel : Nat} {B T : List (Loop D S)} (hB : Pre o mem src c.scaldims L s B)
    (h : generateGeneral o fuel c gen L s (projectAll o B L) = some T) :
    Res mem src c.opt.f (isScal c.scaldims) L B T := by
  have hdim : ∀ b ∈ B, L ≤ o.dim b.dom := fun b hb => more_dim hB.pos hc (hB.leaf b hb).dims (hB.more b hb)
  unfold generateGeneral at h
  rw [levels_eq hopt] at h
  dsimp only at h
  split at h
  · exact absurd h (by simp)
  · rename_i r3 sep cst hr3
    have h1 := step3_mid G E (place_eq _ _ _ hB.pos hc) hopt.f (fun b hb => ⟨hB.leaf b hb, hdim b hb⟩) hr3
    split at h
    · exact absurd h (by simp)
    · rename_i r3b hr3b
      have h2 := step3b_mid G E h1 hr3b
      split at h
      · exact absurd h (by simp)
      · rename_i r4 hr4
        unfold step4 at hr4
        rw [if_pos (by have := hopt.l; omega)] at hr4
        have h3 := recurse_res E hopt.unroll (pos_next hB.pos hc) hgen h2 hr4
        unfold step5 at h
        dsimp only at h
        rw [if_neg (by rw [hopt.backtrack]; simp)] at h
        obtain rfl := Option.some.inj h
        split
        · exact propagate_res G h3
        · exact h3

theorem generateComponents_res (G : GenLaws o mem) (E : ExactLaws o mem) {c : Ctx} (hopt : Sep c.opt) {L s : Nat}
    (hc : levelIsConstant L s (isScal c.scaldims) = false)
    {gen : List (Loop D S) → D → Nat → Nat → Option (List (Loop D S))}
    (hgen : ∀ B d T, Pre o mem src c.scaldims (L + 1) s B → gen B d (L + 1) s = some T →
      Res mem src c.opt.f (isScal c.scaldims) (L + 1) B T)
    {fuel : Nat} {B T : List (Loop D S)} (hB : Pre o mem src c.scaldims L s B)
    (h : generateComponents o fuel c gen L s (projectAll o B L) = some T) :
    Res mem src c.opt.f (isScal c.scaldims) L B T := by
  unfold generateComponents at h
  split at h
  · exact generateGeneral_res G E hopt hc hgen hB h
  · have hpa : projectAll o B L = B.map (Loop.project o L) := rfl
    rw [hpa, componentsOf_map (α := Unit)] at h
    split at h
    · exact absurd h (by simp)
    · rename_i cs' hcs
      rw [Option.map_eq_some_iff] at hcs
      obtain ⟨cs, hcs, rfl⟩ := hcs
      split at h
      · exact absurd h (by simp)
      · rename_i r hr
        obtain rfl := Option.some.inj h
        have c1 := (componentsOf_spec (α := Unit) hcs).1
        have hall : Res mem src c.opt.f (isScal c.scaldims) L B r := by
          intro t ht
          obtain ⟨k', hk', g, hg, htg⟩ := flatMapM_mem hr ht
          obtain ⟨k, hk, rfl⟩ := List.mem_map.1 hk'
          have hkB := (c1 k hk).subset
          exact (generateGeneral_res G E hopt hc hgen
            ⟨fun b hb => hB.leaf b (hkB hb), fun b hb => hB.more b (hkB hb), hB.pos⟩ hg).mono
              (fun a ha => hkB ha) t htg
        cases r with
        | nil => exact hall
        | cons a ls => exact combineFrom_res G ls a hall

theorem generateScalar_res (G : GenLaws o mem) {c : Ctx} (W : WFScal c.scaldims) {f : Int} {L s : Nat}
    (hc : levelIsConstant L s (isScal c.scaldims) = true)
    {gen : List (Loop D S) → Nat → Option (List (Loop D S))}
    (hgen : ∀ B s' T, Pre o mem src c.scaldims L s' B → gen B s' = some T →
      Res mem src f (isScal c.scaldims) L B T)
    {B T : List (Loop D S)} (hB : Pre o mem src c.scaldims L s B)
    (h : generateScalar o c gen L s B = some T) : Res mem src f (isScal c.scaldims) L B T := by
  obtain ⟨hk, hrun⟩ := isRun_of_const W hc
  unfold generateScalar at h
  dsimp only at h
  generalize runLength c.scaldims (L + s - 1) = k at h hk hrun
  obtain ⟨srt, s1, s2, _, _⟩ := Verif.Props.ScalarSort.C20_scalar_sort (scalOf (D := D) (S := S)) o.icmp G.icmp L
    (isScal c.scaldims) s k hrun B
  rw [s1 _ (Nat.lt_succ_self _)] at h
  dsimp only at h
  have hposn : Pos (isScal c.scaldims) L (s + k) := pos_scal hrun.1 hB.pos hrun.2.1
  have key : ∀ (n : Nat) (ls T : List (Loop D S)), (∀ l ∈ ls, l ∈ B) →
      scalarLoop o c (fun g => gen g (s + k)) L s (s + k) n ls = some T →
      Res mem src f (isScal c.scaldims) L B T := by
    intro n
    induction n with
    | zero =>
      intro ls T _ h
      cases ls with
      | nil =>
        simp only [scalarLoop, Option.some.injEq] at h
        subst h
        intro t ht
        simp at ht
      | cons l ls => simp [scalarLoop] at h
    | succ n ih =>
      intro ls T hsub h
      cases ls with
      | nil =>
        simp only [scalarLoop, Option.some.injEq] at h
        subst h
        intro t ht
        simp at ht
      | cons l ls =>
        rw [scalarLoop] at h
        obtain ⟨g1, g2, _⟩ := span_group o c L s (s + k) l ls
        generalize (scalarGroup o c L s (s + k) l ls).1 = A at h g1 g2
        generalize (scalarGroup o c L s (s + k) l ls).2 = R at h g1
        have hA : ∀ m ∈ l :: A, m ∈ B := fun m hm => hsub m (by
          rw [← g1]
          rcases List.mem_cons.1 hm with rfl | hm
          · simp
          · simp [hm])
        have hRB : ∀ m ∈ R, m ∈ B := fun m hm => hsub m (by rw [← g1]; simp [hm])
        by_cases hm : more o l L (s + k) c.scaldims.length = true
        · rw [if_pos hm] at h
          split at h
          · exact absurd h (by simp)
          · rename_i r hr
            split at h
            · exact absurd h (by simp)
            · rename_i rs hrs
              obtain rfl := Option.some.inj h
              refine Res.append ((hgen (l :: A) _ r ⟨fun b hb => hB.leaf b (hA b hb), ?_, hposn⟩ hr).mono hA)
                (ih R rs hRB hrs)
              intro b hb
              rcases List.mem_cons.1 hb with rfl | hb
              · exact hm
              · exact (g2 b hb).1
        · rw [if_neg hm] at h
          split at h
          · exact absurd h (by simp)
          · obtain rfl := Option.some.inj h
            exact (Leaf.res (fun b hb => hB.leaf b (hA b hb))).mono hA
          · rename_i hrs
            obtain rfl := Option.some.inj h
            have h1 : Res mem src f (isScal c.scaldims) L [l] [l] :=
              Leaf.res (fun b hb => hB.leaf b (hA b (by simp at hb; simp [hb])))
            exact (h1.mono (by simpa using hA l (by simp))).append (ih R _ hRB hrs)
  exact key _ srt T (fun l hl => s2.subset hl) h

theorem generateRestricted_res (G : GenLaws o mem) (E : ExactLaws o mem) {c : Ctx} (W : WFScal c.scaldims)
    (hopt : Sep c.opt) :
    ∀ (fuel : Nat) (orStop : Bool) (B : List (Loop D S)) (d : D) (L s : Nat) (T : List (Loop D S)),
      Pre o mem src c.scaldims L s B → generateRestricted o c fuel orStop B d L s = some T →
      Res mem src c.opt.f (isScal c.scaldims) L B T := by
  intro fuel
  induction fuel with
  | zero => intro _ B d L s T _ h; simp [generateRestricted] at h
  | succ fuel ih =>
    intro orStop B d L s T hB h
    rw [generateRestricted, if_neg (by have := hopt.stop; omega)] at h
    split at h
    · rename_i hc
      exact generateScalar_res G W hc (fun B' s' T' hB' h' => ih false B' d L s' T' hB' h') hB h
    · rename_i hc
      have hc : levelIsConstant L s (isScal c.scaldims) = false := by simpa using hc
      exact generateComponents_res G E hopt hc (fun B' d' T' hB' h' => ih true B' d' (L + 1) s T' hB' h') hB h

/-- **C69.**  With separation from position `f` of the scattering on, in the loops generated for the statements `B`
each iteration of a loop with several iterations, at a position from `f` on, contains an instance of each of the
statements inside the loop. -/
theorem C69_no_idle_iterations_partial (G : GenLaws o mem) (E : ExactLaws o mem) {c : Ctx} (W : WFScal c.scaldims)
    (hopt : Sep c.opt) {fuel : Nat} {B T : List (Loop D S)} {ctx : D} (hctx : o.dim ctx = 0)
    (hB : ∀ b ∈ B, b.inner = [] ∧ (isScal c.scaldims).count false ≤ o.dim b.dom)
    (h : generate o c fuel B ctx 0 0 = some T) :
    ∀ t ∈ T, ∀ M m, In 0 t M m → c.opt.f ≤ (place (isScal c.scaldims) M : Int) → Varies mem M m.dom →
      Busy mem (fun b px => ∃ l ∈ B, l.block = some b ∧ mem l.dom px) M m := by
  have hR := restrictAll_spec G ctx B (fun b _ => by omega)
  unfold generate at h
  split at h
  · obtain rfl := Option.some.inj h
    simp
  · intro t ht M m hm
    refine Good.all (generateRestricted_res G E W hopt fuel true _ ctx 0 0 T
      ⟨fun r hr => ?_, fun r _ => by simp [more], Or.inl ⟨rfl, rfl⟩⟩ h t ht).1 hm
    obtain ⟨b, hb, h1, h2, h3, h4⟩ := hR.sound r hr
    exact ⟨h3 ▸ (hB b hb).1, h2 ▸ (hB b hb).2, fun k hk px hx => ⟨b, hb, h1.trans hk, ((h4 px).1 hx).2⟩⟩

/-! ## Examples -/

open Verif.BoxDom

/-- The concrete domains with an exact projection, and constants away from the clamped values. -/
def opsE : DomOps BD (Int × Int) Unit := { BoxDom.ops with
  project := fun d l => ⟨l, d.parts.map (fun q => ((q.filter (fun v => v ∈ univ d.dim)).map (List.take l)).eraseDups)⟩
  lazyIsConstant := fun d i => (BoxDom.ops.lazyIsConstant d i).filter (fun c => decide (i < d.dim ∧ 0 < c ∧ c < 4)) }

theorem opsE_project (d : BD) (L : Nat) (px : Unit × Pt) :
    BoxDom.mem (opsE.project d L) px ↔ ∃ v ∈ d.all, v ∈ univ d.dim ∧ v.take L = code L px.2 := by
  simp only [BoxDom.mem, BD.all, opsE, List.mem_flatten, List.mem_map]
  constructor
  · rintro ⟨l, ⟨q, hq, rfl⟩, h⟩
    rw [List.mem_eraseDups, List.mem_map] at h
    obtain ⟨v, hv, e⟩ := h
    rw [List.mem_filter] at hv
    exact ⟨v, ⟨q, hq, hv.1⟩, by simpa using hv.2, e⟩
  · rintro ⟨v, ⟨q, hq, hv⟩, hu, e⟩
    refine ⟨_, ⟨q, hq, rfl⟩, ?_⟩
    rw [List.mem_eraseDups, List.mem_map]
    exact ⟨v, List.mem_filter.2 ⟨hv, by simpa using hu⟩, e⟩

theorem lawsE : GenLaws opsE BoxDom.mem := { BoxDom.laws with
  project := fun d L px hl h => (opsE_project d L px).2 ⟨_, h, code_univ _ _, code_take hl _⟩
  dim_project := fun _ _ _ => rfl }

theorem exactE : ExactLaws opsE BoxDom.mem where
  project d L p x hl h := by
    obtain ⟨v, hv, hu, e⟩ := (opsE_project d L _).1 h
    obtain ⟨z, rfl⟩ := univ_code _ _ hu
    have hl : L ≤ d.dim := hl
    refine ⟨fun i => if i < L then x i else z i, fun i hi => (if_pos (by omega : i < L)).symm, ?_⟩
    have h1 : code d.dim (fun i => if i < L then x i else z i) = code d.dim z := by
      rw [code_take hl] at e
      unfold code at e ⊢
      refine List.map_congr_left (fun i hi => ?_)
      by_cases h2 : i < L
      · have := List.map_inj_left.1 e i (by simpa using h2)
        dsimp only
        rw [if_pos h2, this]
      · dsimp only
        rw [if_neg h2]
    unfold BoxDom.mem
    rw [h1]
    exact hv
  lower d L s px h := h
  const d i c h px hm := by
    simp only [opsE, ops, Option.filter_eq_some_iff, decide_eq_true_eq] at h
    obtain ⟨h, hi, h0, h4⟩ := h
    have hg : (code d.dim px.2).getD i 0 = clamp (px.2 i) := by
      simp [code, List.getD, hi]
    unfold BoxDom.mem at hm
    split at h
    · exact absurd h (by simp)
    · rename_i v vs hv
      split at h
      · rename_i ha
        have h := Option.some.inj h
        rw [hv] at hm
        have : clamp (px.2 i) = c := by
          rw [← hg, ← h]
          rcases List.mem_cons.1 hm with e | hm
          · rw [e]
          · simpa using List.all_eq_true.1 ha _ hm
        unfold clamp at this
        omega
      · exact absurd h (by simp)
  hull d i c h px hm := h px (by simpa [opsE, ops, BoxDom.mem, BD.all] using hm)

/-- The separated loops for `S1: 1 <= i <= 3` and `S2: 2 <= i <= 3`. -/
def exT : List (Loop BD (Int × Int)) :=
  [.mk ⟨0, [[[], []]]⟩ false none none
    [.mk ⟨1, [[[1]]]⟩ false none none [.mk ⟨1, [[[1]]]⟩ false none (some ⟨[1], []⟩) []],
     .mk ⟨1, [[[2], [3]]]⟩ false none none [.mk ⟨1, [[[2], [3]]]⟩ false none (some ⟨[1], []⟩) [],
       .mk ⟨1, [[[2], [3]]]⟩ false none (some ⟨[2], []⟩) []]]]

theorem exT_eq : generate opsE Generate.exC 20 Pipeline.exB (Generate.box 0 [[]]) 0 0 = some exT := by rfl

theorem sep_default : Sep Generate.exC.opt := ⟨by decide, by decide, Or.inl rfl, by decide, rfl, by decide⟩

/-- The loop over 2 and 3 has both statements, and both are executed for each value. -/
example : ∃ t ∈ exT, ∃ m, In 0 t 1 m ∧ blocksOf m = [⟨[1], []⟩, ⟨[2], []⟩] ∧ Varies BoxDom.mem 1 m.dom ∧
    Busy BoxDom.mem (fun b px => ∃ l ∈ Pipeline.exB, l.block = some b ∧ BoxDom.mem l.dom px) 1 m := by
  have hw : WFScal Generate.exC.scaldims := by intro i n hi; simp [Generate.exC] at hi
  have h := C69_no_idle_iterations_partial lawsE exactE hw sep_default (fuel := 20) (ctx := Generate.box 0 [[]]) rfl
    (by decide) exT_eq
  have hin : In 0 exT[0] 1 exT[0].inner[1] := .there (by simp) .here
  have hv : Varies BoxDom.mem 1 exT[0].inner[1].dom := by
    refine ⟨(), fun _ => 2, fun _ => 3, ?_, ?_, fun i hi => by omega, by simp⟩ <;> unfold BoxDom.mem <;> decide
  exact ⟨_, by simp, _, hin, by rfl, hv, h _ (by simp) 1 _ hin (by decide) hv⟩

/-- Scalar dimensions count: with the scattering `(i, 0, j)` the loop over `j` is at position 3. -/
example : place [false, true, false] 2 = 3 ∧ place [] 2 = 2 ∧ place [true, true] 1 = 3 := by decide

/-- `-f 2`. -/
def exC2 : Ctx := ⟨{ f := 2 }, []⟩

/-- `S1: 1 <= i <= 2, j = 1, 1 <= k <= 2` and `S2: i = 2, j = 1, 1 <= k <= 2`. -/
def exB2 : List (Loop BD (Int × Int)) :=
  [Generate.stmt 1 [] (Generate.box 3 [[1, 1, 1], [1, 1, 2], [2, 1, 1], [2, 1, 2]]),
   Generate.stmt 2 [] (Generate.box 3 [[2, 1, 1], [2, 1, 2]])]

/-- The loop of level 2 for them. -/
def exM2 : Loop BD (Int × Int) :=
  .mk ⟨2, [[[1, 1], [2, 1], [2, 1]]]⟩ false none none
    [.mk ⟨3, [[[2, 1, 1], [2, 1, 2]]]⟩ false none none
      [.mk ⟨3, [[[2, 1, 1], [2, 1, 2]]]⟩ false none (some ⟨[1], []⟩) [],
       .mk ⟨3, [[[2, 1, 1], [2, 1, 2]]]⟩ false none (some ⟨[2], []⟩) []],
     .mk ⟨3, [[[1, 1, 1], [1, 1, 2]]]⟩ false none none
      [.mk ⟨3, [[[1, 1, 1], [1, 1, 2]]]⟩ false none (some ⟨[1], []⟩) []]]

/-- The loop of level 1 around it. -/
def exM1 : Loop BD (Int × Int) := .mk ⟨1, [[[1], [2], [2]]]⟩ false none none [exM2]

/-- **C69, false for constant levels.**  A level at which all statements have the same value is not separated: the
    "loop" over `j`, with one value, is entered for both values of `i`, but the statement `S2` inside it is only executed
    for one of them. -/
theorem C69_constant : Sep exC2.opt ∧ ∃ T, generate opsE exC2 20 exB2 (Generate.box 0 [[]]) 0 0 = some T ∧
    ∃ t ∈ T, In 0 t 2 exM2 ∧ exC2.opt.f ≤ (place (isScal exC2.scaldims) 2 : Int) ∧
    ¬ Busy BoxDom.mem (fun b px => ∃ l ∈ exB2, l.block = some b ∧ BoxDom.mem l.dom px) 2 exM2 := by
  refine ⟨⟨by decide, by decide, Or.inl rfl, by decide, rfl, by decide⟩,
    [.mk ⟨0, [[[], []]]⟩ false none none [exM1]], by rfl, .mk ⟨0, [[[], []]]⟩ false none none [exM1],
    List.mem_singleton.2 rfl, .there (i := exM1) (List.mem_singleton.2 rfl)
      (.there (i := exM2) (List.mem_singleton.2 rfl) .here), by decide, ?_⟩
  intro h
  obtain ⟨y, hy, l, hl, hb, hm⟩ := h ⟨[2], []⟩ (by decide) () (fun _ => 1) (by unfold BoxDom.mem; decide)
  have h0 : y 0 = 1 := (hy 0 (by omega)).symm
  simp only [exB2, List.mem_cons, List.not_mem_nil, or_false] at hl
  rcases hl with rfl | rfl
  · exact absurd hb (by decide)
  · unfold BoxDom.mem at hm
    simp [Generate.stmt, Generate.box, BD.all, code, List.range, List.range.loop, clamp, h0] at hm

end Verif.Props.Separated
