import Verif.Props.Separated
import Verif.Props.Terminates

/-!
# C72: the last loop depth to be optimized (`-l`)

Deeper loops hold one statement each; the other loops are the same as without `-l`.
-/

namespace Verif.Props.LastLevel
open Verif.Loop Verif.Gen Verif.ScalarSort Verif.Props.Separated Verif.Props.Terminates

variable {D S C : Type} {o : DomOps D S C}

/-! ## Specification -/

/-- In the tree `t` of level `M`, a loop inside a loop at a position from `l` on has at most one thing in its body. -/
inductive Alone (flags : List Bool) (l : Int) : Nat → Loop D S → Prop
  | mk {M : Nat} {t : Loop D S} (one : 1 < M → l ≤ (place flags (M - 1) : Int) → t.inner.length ≤ 1)
      (inner : ∀ i ∈ t.inner, Alone flags l (M + 1) i) : Alone flags l M t

/-- The lists of trees of level `M` have the same loops and statements in the same order, with the same domains, except
    inside the loops at the positions from `l` on. -/
inductive Same (flags : List Bool) (l : Int) : Nat → List (Loop D S) → List (Loop D S) → Prop
  | nil {M : Nat} : Same flags l M [] []
  | cons {M : Nat} {t t' : Loop D S} {ts ts' : List (Loop D S)} (dom : t.dom = t'.dom) (block : t.block = t'.block)
      (inner : M = 0 ∨ (place flags M : Int) < l → Same flags l (M + 1) t.inner t'.inner)
      (rest : Same flags l M ts ts') : Same flags l M (t :: ts) (t' :: ts')

/-! ## The steps before the recursion -/

/-- A loop without statement, with statements in its body. -/
def Flat (q : Loop D S) : Prop := q.block = none ∧ ∀ i ∈ q.inner, i.inner = []

theorem splitRest_block {rec_ : Loop D S → Option (List (Loop D S))} {b : Option Block} {inner : List (Loop D S)}
    (hrec : ∀ l r, l.block = b → rec_ l = some r → ∀ q ∈ r, q.block = b) :
    ∀ (k : Nat) (rest seen : D) (r : List (Loop D S)), splitRest o rec_ b inner k rest seen = some r →
    ∀ q ∈ r, q.block = b
  | 0, _, _, _, h => by simp [splitRest] at h
  | k + 1, rest, seen, r, h => by
    rw [splitRest] at h
    split at h
    · obtain rfl := Option.some.inj h
      simp
    · split at h
      · exact splitRest_block hrec k _ _ r h
      · split at h
        · exact absurd h (by simp)
        · rename_i pieces hp
          have hpieces : ∀ q ∈ pieces, q.block = b := by
            split at hp
            · obtain rfl := Option.some.inj hp
              intro q hq
              rw [List.mem_singleton] at hq
              subst hq
              rfl
            · exact hrec _ _ rfl hp
          split at h
          · obtain rfl := Option.some.inj h
            exact hpieces
          · split at h
            · exact absurd h (by simp)
            · rename_i more hm
              obtain rfl := Option.some.inj h
              intro q hq
              rcases List.mem_append.1 hq with hq | hq
              · exact hpieces q hq
              · exact splitRest_block hrec k _ _ more hm q hq

theorem addDisjoint_block : ∀ (n : Nat) (l : Loop D S) (r : List (Loop D S)), addDisjoint o n l = some r →
    ∀ q ∈ r, q.block = l.block
  | 0, _, _, h => by simp [addDisjoint] at h
  | n + 1, l, r, h => by
    rw [addDisjoint] at h
    split at h
    · obtain rfl := Option.some.inj h
      intro q hq
      rw [List.mem_singleton] at hq
      rw [hq]
    · split at h
      · exact absurd h (by simp)
      · rename_i more hm
        obtain rfl := Option.some.inj h
        intro q hq
        rcases List.mem_cons.1 hq with rfl | hq
        · rfl
        · exact splitRest_block (fun l' r h1 h2 q hq => (addDisjoint_block n l' r h2 q hq).trans h1) n _ _ more hm q hq

/-- A property of the parts of the bodies, and a loop without statement. -/
def Body (P : Loop D S → Prop) (q : Loop D S) : Prop := q.block = none ∧ ∀ i ∈ q.inner, P i

variable {P : Loop D S → Prop}

theorem addDisjoint_body {n : Nat} {l : Loop D S} {r : List (Loop D S)} (hl : Body P l)
    (h : addDisjoint o n l = some r) : ∀ q ∈ r, Body P q := fun q hq =>
  ⟨(addDisjoint_block n l r h q hq).trans hl.1, by rw [addDisjoint_same n l r h q hq]; exact hl.2⟩

theorem disjoint_body {n : Nat} {ls r : List (Loop D S)} (hl : ∀ l ∈ ls, Body P l)
    (h : flatMapM (addDisjoint o n) ls = some r) : ∀ q ∈ r, Body P q := by
  intro q hq
  obtain ⟨a, ha, bs, hbs, hqb⟩ := flatMapM_mem h hq
  exact addDisjoint_body (hl a ha) hbs q hqb

theorem combineFrom_body : ∀ (ls : List (Loop D S)) (a : Loop D S), Body P a → (∀ l ∈ ls, Body P l) →
    ∀ q ∈ combineFrom o a ls, Body P q
  | [], a, ha, _, q, hq => by
    rw [combineFrom, List.mem_singleton] at hq
    exact hq ▸ ha
  | b :: ls, a, ha, hls, q, hq => by
    have hb := hls b (by simp)
    rw [combineFrom] at hq
    split at hq
    · refine combineFrom_body ls _ ?_ (fun l hl => hls l (by simp [hl])) q hq
      cases a
      refine ⟨ha.1, fun i hi => ?_⟩
      rcases List.mem_append.1 hi with hi | hi
      · exact ha.2 i hi
      · exact hb.2 i hi
    · rcases List.mem_cons.1 hq with rfl | hq
      · exact ha
      · exact combineFrom_body ls b hb (fun l hl => hls l (by simp [hl])) q hq

theorem combine_body {ls : List (Loop D S)} (h : ∀ l ∈ ls, Body P l) : ∀ q ∈ combine o ls, Body P q := by
  cases ls with
  | nil => simp [combine]
  | cons a ls => exact combineFrom_body ls a (h a (by simp)) (fun l hl => h l (by simp [hl]))

theorem sepPieces_body {res : List (Loop D S)} {uq : D} {l : Loop D S} (h1 : ∀ q ∈ res, Body P q) (h2 : Body P l) :
    ∀ q ∈ sepPieces o res uq l, Body P q := by
  intro q hq
  unfold sepPieces at hq
  rcases List.mem_append.1 hq with hq | hq
  · obtain ⟨a, ha, hq⟩ := List.mem_flatMap.1 hq
    rcases List.mem_append.1 hq with hq | hq
    · rw [Option.mem_toList] at hq
      unfold sepInter at hq
      obtain ⟨_, hq⟩ := Option.ite_none_left_eq_some.1 hq
      dsimp only at hq
      obtain ⟨_, hq⟩ := Option.ite_none_left_eq_some.1 hq
      obtain rfl := Option.some.inj hq
      refine ⟨rfl, fun i hi => ?_⟩
      rcases List.mem_append.1 hi with hi | hi
      · exact (h1 a ha).2 i hi
      · exact h2.2 i hi
    · rw [Option.mem_toList] at hq
      unfold sepDiff at hq
      dsimp only at hq
      obtain ⟨_, hq⟩ := Option.ite_none_left_eq_some.1 hq
      obtain rfl := Option.some.inj hq
      exact ⟨rfl, (h1 a ha).2⟩
  · rw [Option.mem_toList] at hq
    unfold sepRest at hq
    dsimp only at hq
    obtain ⟨_, hq⟩ := Option.ite_none_left_eq_some.1 hq
    obtain rfl := Option.some.inj hq
    exact ⟨rfl, h2.2⟩

theorem sepLoop_body {n : Nat} : ∀ (ls res : List (Loop D S)) (uq : D) (r : List (Loop D S)), (∀ l ∈ ls, Body P l) →
    (∀ q ∈ res, Body P q) → sepLoop o n ls res uq = some r → ∀ q ∈ r, Body P q
  | [], res, _, r, _, h2, h => by
    obtain rfl := Option.some.inj h
    exact h2
  | l :: ls, res, uq, r, h1, h2, h => by
    rw [sepLoop] at h
    split at h
    · exact absurd h (by simp)
    · rename_i res' hr
      exact sepLoop_body ls res' _ r (fun a ha => h1 a (by simp [ha]))
        (disjoint_body (sepPieces_body h2 (h1 l (by simp))) hr) h

theorem separate_body {n : Nat} {ls r : List (Loop D S)} (h1 : ∀ l ∈ ls, Body P l) (h : separate o n ls = some r) :
    ∀ q ∈ r, Body P q := by
  have hc := combine_body (o := o) h1
  unfold separate at h
  generalize combine o ls = cs at h hc
  split at h
  · obtain rfl := Option.some.inj h
    simp
  · exact disjoint_body hc h
  · rename_i l ls' _
    have hl := hc l (by simp)
    refine sepLoop_body ls' _ _ r (fun a ha => hc a (by simp [ha])) ?_ h
    intro q hq
    rw [List.mem_singleton] at hq
    subst hq
    exact hl

theorem mergeSplit_body {opt : Options} {t : D} {inner : List (Loop D S)} (hin : ∀ i ∈ inner, P i) :
    ∀ (n : Nat) (d : D) (res out : List (Loop D S)), (∀ q ∈ res, Body P q) → mergeSplit o opt t inner n d res = some out →
    ∀ q ∈ out, Body P q
  | 0, _, _, _, _, h => by simp [mergeSplit] at h
  | n + 1, d, res, out, hres, h => by
    rw [mergeSplit] at h
    dsimp only at h
    split at h
    · split at h
      · obtain rfl := Option.some.inj h
        exact hres
      · obtain rfl := Option.some.inj h
        intro q hq
        rcases List.mem_cons.1 hq with rfl | hq
        · exact ⟨rfl, hin⟩
        · exact hres q hq
    · refine mergeSplit_body hin n _ _ out (fun q hq => ?_) h
      split at hq
      · exact hres q hq
      · rcases List.mem_cons.1 hq with rfl | hq
        · exact ⟨rfl, hin⟩
        · exact hres q hq

theorem flatMap_inner {ls : List (Loop D S)} (h1 : ∀ l ∈ ls, Body P l) : ∀ i ∈ ls.flatMap Loop.inner, P i := by
  intro i hi
  obtain ⟨l, hl, hi⟩ := List.mem_flatMap.1 hi
  exact (h1 l hl).2 i hi

theorem step3_body {n : Nat} {c : Ctx} {L s : Nat} {first : Int} {ls : List (Loop D S)}
    {r : List (Loop D S) × Bool × Bool} (h1 : ∀ l ∈ ls, Body P l) (h : step3 o n c L s first ls = some r) :
    ∀ q ∈ r.1, Body P q := by
  unfold step3 at h
  by_cases h0 : 0 < L ∧ isConstant o L ls = true
  · rw [if_pos h0] at h
    obtain rfl := Option.some.inj h
    cases ls with
    | nil => simp [constant]
    | cons l ls =>
      intro q hq
      simp only [constant, List.mem_singleton] at hq
      subst hq
      exact ⟨rfl, flatMap_inner h1⟩
  · rw [if_neg h0] at h
    split at h
    · rw [Option.map_eq_some_iff] at h
      obtain ⟨a, ha, rfl⟩ := h
      cases ls with
      | nil =>
        simp only [merge, Option.some.injEq] at ha
        subst ha
        simp
      | cons l ls =>
        rw [merge] at ha
        split at ha
        · obtain rfl := Option.some.inj ha
          intro q hq
          rw [List.mem_singleton] at hq
          subst hq
          exact h1 _ (by simp)
        · dsimp only at ha
          split at ha
          · exact mergeSplit_body (flatMap_inner h1) _ _ _ _ (by simp) ha
          · obtain rfl := Option.some.inj ha
            intro q hq
            rw [List.mem_singleton] at hq
            subst hq
            exact ⟨rfl, flatMap_inner h1⟩
    · rw [Option.map_eq_some_iff] at h
      obtain ⟨a, ha, rfl⟩ := h
      exact separate_body h1 ha

theorem restrict_flat {l m : Loop D S} {d : D} (h : restrict o l d = some m) :
    m.inner = l.inner ∧ m.block = l.block ∧ m.stride = none := by
  unfold restrict at h
  dsimp only at h
  obtain ⟨_, h⟩ := Option.ite_none_left_eq_some.1 h
  obtain rfl := Option.some.inj h
  exact ⟨rfl, rfl, rfl⟩

theorem restrictAll_flat {ls : List (Loop D S)} {d : D} (h : ∀ l ∈ ls, l.inner = []) :
    ∀ i ∈ restrictAll o ls d, i.inner = [] := by
  intro i hi
  obtain ⟨l, hl, hi⟩ := List.mem_filterMap.1 hi
  exact (restrict_flat hi).1.trans (h l hl)

theorem restrictInner_flat {ls : List (Loop D S)} (h : ∀ l ∈ ls, Flat l) : ∀ q ∈ restrictInner o ls, Flat q := by
  intro q hq
  obtain ⟨l, hl, hq⟩ := List.mem_filterMap.1 hq
  obtain ⟨_, hq⟩ := Option.ite_none_left_eq_some.1 hq
  obtain rfl := Option.some.inj hq
  have := h l hl
  cases l
  exact ⟨this.1, restrictAll_flat this.2⟩

theorem specialize_flat {L s : Nat} {scal : List Nat} {ls r : List (Loop D S)} (h1 : ∀ l ∈ ls, Flat l)
    (h : specialize o L s scal ls = some r) : ∀ q ∈ r, Flat q := by
  unfold specialize at h
  split at h
  · exact absurd h (by simp)
  · rename_i ds hds
    obtain rfl := Option.some.inj h
    have hd : ∀ q ∈ ds, Flat q := by
      intro q hq
      obtain ⟨a, ha, bs, hbs, hqb⟩ := flatMapM_mem hds hq
      unfold decomposeOne at hbs
      split at hbs
      · obtain rfl := Option.some.inj hbs
        rw [List.mem_singleton] at hqb
        exact hqb ▸ h1 a ha
      · split at hbs
        · exact absurd hbs (by simp)
        · rename_i cs hcs
          obtain rfl := Option.some.inj hbs
          obtain ⟨k, hk, rfl⟩ := List.mem_map.1 hqb
          have hk := ((componentsOf_spec (α := Unit) hcs).1 k hk).subset
          exact ⟨(h1 a ha).1, fun i hi => (h1 a ha).2 i (hk hi)⟩
    intro q hq
    obtain ⟨l, hl, rfl⟩ := List.mem_map.1 (List.mem_filter.1 hq).1
    have := hd l hl
    unfold specializeOne
    split
    · split
      · cases l
        exact this
      · exact this
    · exact this

theorem step3b_flat {c : Ctx} {L s : Nat} {sep : Bool} {ls r : List (Loop D S)} (h1 : ∀ l ∈ ls, Flat l)
    (h : step3b o c L s sep ls = some r) : ∀ q ∈ r, Flat q := by
  unfold step3b at h
  split at h
  · exact absurd h (by simp)
  · rename_i a ha
    have h2 := restrictInner_flat (o := o) (fun l hl => h1 l (sort_mem ha l hl))
    split at h
    · exact specialize_flat h2 h
    · obtain rfl := Option.some.inj h
      exact h2

/-! ## Deeper loops hold one statement -/

section
variable {flags : List Bool} {l : Int}

theorem Alone.leaf {M : Nat} {t : Loop D S} (h : t.inner = []) : Alone flags l M t :=
  ⟨fun _ _ => by simp [h], fun i hi => by simp [h] at hi⟩

theorem Alone.chain {M : Nat} {t i : Loop D S} (h : t.inner = [i]) (hi : Alone flags l (M + 1) i) :
    Alone flags l M t :=
  ⟨fun _ _ => by simp [h], fun j hj => by rw [h, List.mem_singleton] at hj; exact hj ▸ hi⟩

/-- All loops of the level may have several inner loops. -/
theorem Alone.node {M : Nat} {t : Loop D S} (hM : ¬ (1 < M ∧ l ≤ (place flags (M - 1) : Int)))
    (h : ∀ i ∈ t.inner, Alone flags l (M + 1) i) : Alone flags l M t :=
  ⟨fun a b => absurd ⟨a, b⟩ hM, h⟩

theorem nestProjections_alone (d : D) (L : Nat) : ∀ (n M : Nat) (t : Loop D S), (∀ M, Alone flags l M t) →
    Alone flags l M (nestProjections o d L n t)
  | 0, M, t, h => h M
  | n + 1, M, t, h => nestProjections_alone d L n M _ (fun M => .chain rfl (h (M + 1)))

theorem nestBelow_alone {n L : Nat} {q : Loop D S} {r : List (Loop D S)}
    (hM : ¬ (1 < L ∧ l ≤ (place flags (L - 1) : Int))) (hq : Flat q) (h : nestBelow o n L q = some r) :
    ∀ t ∈ r, Alone flags l L t := by
  unfold nestBelow at h
  split at h
  · exact absurd h (by simp)
  · rename_i i hi
    obtain rfl := Option.some.inj h
    intro t ht
    rw [List.mem_singleton] at ht
    subst ht
    refine .node hM (fun j hj => ?_)
    unfold nest at hi
    split at hi
    · exact absurd hi (by simp)
    · rename_i ds hds
      obtain rfl := Option.some.inj hi
      obtain ⟨a, ha, hj⟩ := List.mem_filterMap.1 hj
      obtain ⟨b, hb, bs, hbs, hab⟩ := flatMapM_mem hds ha
      have ha : a.inner = [] := (addDisjoint_same _ _ _ hbs a hab).trans (hq.2 b hb)
      unfold nestOne at hj
      split at hj
      · exact absurd hj (by simp)
      · rename_i p hp
        obtain rfl := Option.some.inj hj
        exact nestProjections_alone _ _ _ _ _ (fun M => .leaf ((restrict_flat hp).1.trans ha))

theorem recurseInner_alone {M s nb : Nat} {gen : List (Loop D S) → Option (List (Loop D S))}
    (hgen : ∀ ls r, (∀ i ∈ ls, i.inner = []) → gen ls = some r → ∀ t ∈ r, Alone flags l M t) :
    ∀ (n : Nat) (ls r : List (Loop D S)), (∀ i ∈ ls, i.inner = []) → recurseInner o gen M s nb n ls = some r →
      ∀ t ∈ r, Alone flags l M t := by
  intro n
  induction n with
  | zero =>
    intro ls r hls h
    cases ls with
    | nil => simp only [recurseInner, Option.some.injEq] at h; subst h; simp
    | cons a ls => simp [recurseInner] at h
  | succ n ih =>
    intro ls r hls h
    cases ls with
    | nil => simp only [recurseInner, Option.some.injEq] at h; subst h; simp
    | cons a ls =>
      rw [recurseInner] at h
      have hsp : (spanMore o M s nb (a :: ls)).1 ++ (spanMore o M s nb (a :: ls)).2 = a :: ls := by
        simp [spanMore, List.span_eq_takeWhile_dropWhile]
      split at h
      · split at h
        · exact absurd h (by simp)
        · rename_i q hq
          split at h
          · exact absurd h (by simp)
          · rename_i rs hrs
            obtain rfl := Option.some.inj h
            intro t ht
            rcases List.mem_append.1 ht with ht | ht
            · exact hgen _ _ (fun i hi => hls i (by rw [← hsp]; exact List.mem_append_left _ hi)) hq t ht
            · exact ih _ _ (fun i hi => hls i (by rw [← hsp]; exact List.mem_append_right _ hi)) hrs t ht
      · split at h
        · exact absurd h (by simp)
        · rename_i rs hrs
          obtain rfl := Option.some.inj h
          intro t ht
          rcases List.mem_cons.1 ht with rfl | ht
          · exact .leaf (hls _ (by simp))
          · exact ih _ _ (fun i hi => hls i (by simp [hi])) hrs t ht

theorem recurseBelow_alone {c : Ctx} {L s : Nat}
    {gen : List (Loop D S) → D → Nat → Nat → Option (List (Loop D S))}
    (hgen : ∀ ls d r, (∀ i ∈ ls, i.inner = []) → gen ls d (L + 1) s = some r → ∀ t ∈ r, Alone flags l (L + 1) t)
    (hM : ¬ (1 < L ∧ l ≤ (place flags (L - 1) : Int))) {q t : Loop D S} (hq : ∀ i ∈ q.inner, i.inner = [])
    (h : recurseBelow o c gen L s q = some t) : Alone flags l L t := by
  unfold recurseBelow at h
  dsimp only at h
  have he : (if 0 < L ∧ c.opt.otl = true then loopOtl o L q else q).inner = q.inner := by
    split
    · cases q; rfl
    · rfl
  rw [he] at h
  split at h
  · exact absurd h (by simp)
  · rename_i into hinto
    obtain rfl := Option.some.inj h
    refine .node hM (fun i hi => ?_)
    generalize (if 0 < L ∧ c.opt.otl = true then loopOtl o L q else q) = q' at hi
    cases q'
    exact recurseInner_alone (fun ls r hls hr => hgen ls _ r hls hr) _ _ _ hq hinto i hi

theorem loopStride_inner (L : Nat) (q : Loop D S) : (loopStride o L q).inner = q.inner := by
  obtain ⟨d, ot, st, b, inner⟩ := q
  rw [loopStride]
  split
  · rfl
  · split
    · rfl
    · split <;> rfl

theorem recurse_alone {c : Ctx} {L s : Nat} {con : Bool}
    {gen : List (Loop D S) → D → Nat → Nat → Option (List (Loop D S))}
    (hgen : ∀ ls d r, (∀ i ∈ ls, i.inner = []) → gen ls d (L + 1) s = some r → ∀ t ∈ r, Alone flags l (L + 1) t)
    (hM : ¬ (1 < L ∧ l ≤ (place flags (L - 1) : Int))) {ls r : List (Loop D S)} (hls : ∀ q ∈ ls, Flat q)
    (h : recurse o c gen con L s ls = some r) : ∀ t ∈ r, Alone flags l L t := by
  intro t ht
  obtain ⟨a, ha, bs, hbs, htb⟩ := flatMapM_mem h ht
  have one : ∀ m bs, (∀ i ∈ m.inner, i.inner = []) → loopRecurseConst o c gen L s m = some bs → t ∈ bs →
      Alone flags l L t := by
    intro m bs hm h1 h2
    unfold loopRecurseConst at h1
    rw [Option.map_eq_some_iff] at h1
    obtain ⟨q, hq, rfl⟩ := h1
    rw [List.mem_singleton] at h2
    exact h2 ▸ recurseBelow_alone hgen hM hm hq
  have hp : ∀ b, recursePrepare o c con L s a = some b →
      (∀ m, b = .inl m → ∀ i ∈ m.inner, i.inner = []) ∧ (∀ ms, b = .inr ms → ∀ m ∈ ms, ∀ i ∈ m.inner, i.inner = []) := by
    intro b hb
    unfold recursePrepare at hb
    dsimp only at hb
    have hin : ∀ i ∈ (if 0 < L ∧ c.opt.strides = true ∧ con = false then loopStride o L a else a).inner, i.inner = [] := by
      split
      · rw [loopStride_inner]
        exact (hls a ha).2
      · exact (hls a ha).2
    generalize (if 0 < L ∧ c.opt.strides = true ∧ con = false then loopStride o L a else a) = a' at hb hin
    have hu : ∀ m ∈ unrollOne o L a', ∀ i ∈ m.inner, i.inner = [] := by
      intro m hm
      unfold unrollOne at hm
      split at hm
      · rw [List.mem_singleton] at hm
        exact hm ▸ hin
      · obtain ⟨i, _, hi⟩ := List.mem_filterMap.1 hm
        dsimp only at hi
        obtain ⟨_, hi⟩ := Option.ite_none_left_eq_some.1 hi
        obtain rfl := Option.some.inj hi
        exact restrictAll_flat hin
    split at hb
    · generalize unrollOne o L a' = us at hb hu
      match us, hb, hu with
      | [], hb, _ => simp [unrolled] at hb
      | [m], hb, hu =>
        obtain rfl := Option.some.inj hb
        exact ⟨fun m' e => by obtain rfl := Sum.inl.inj e; exact hu _ (by simp), fun _ e => by cases e⟩
      | m :: n :: ms, hb, hu =>
        obtain rfl := Option.some.inj hb
        exact ⟨fun _ e => by (cases e), fun ms' e => by obtain rfl := Sum.inr.inj e; exact hu⟩
    · obtain rfl := Option.some.inj hb
      exact ⟨fun m e => by obtain rfl := Sum.inl.inj e; exact hin, fun _ e => by cases e⟩
  unfold loopRecurse at hbs
  split at hbs
  · exact absurd hbs (by simp)
  · rename_i m hm
    exact one m bs ((hp _ hm).1 m rfl) hbs htb
  · rename_i ms hms
    obtain ⟨m, hm, cs, hcs, htc⟩ := flatMapM_mem hbs htb
    exact one m cs ((hp _ hms).2 ms rfl m hm) hcs htc

theorem alone_inner {M : Nat} {t : Loop D S} (h : Alone flags l M t) : ∀ i ∈ t.inner, Alone flags l (M + 1) i := by
  cases h with
  | mk _ h => exact h

theorem step5_alone {n : Nat} {c : Ctx} {L s : Nat} {first last : Int}
    (hM : ¬ (1 < L ∧ l ≤ (place flags (L - 1) : Int))) {ls r : List (Loop D S)} (hls : ∀ t ∈ ls, Alone flags l L t)
    (h : step5 o n c L s first last ls = some r) : ∀ t ∈ r, Alone flags l L t := by
  unfold step5 at h
  dsimp only at h
  have hls' : ∀ t ∈ (if c.opt.strides = true then propagate o ls else ls), Alone flags l L t := by
    split
    · intro t ht
      obtain ⟨q, hq, rfl⟩ := List.mem_map.1 ht
      have := hls q hq
      unfold propagateOne
      split
      · split
        · refine .node hM (fun i hi => alone_inner this i ?_)
          cases q
          exact hi
        · exact this
      · exact this
    · exact hls
  generalize (if c.opt.strides = true then propagate o ls else ls) = ls' at h hls'
  split at h
  · intro t ht
    obtain ⟨q, hq, bs, hbs, htb⟩ := flatMapM_mem h ht
    unfold backtrackLoop at hbs
    split at hbs
    · obtain rfl := Option.some.inj hbs
      simp at htb
    · split at hbs
      · exact absurd hbs (by simp)
      · rename_i sp hsp
        refine .node hM (separate_body (P := Alone flags l (L + 1)) ?_ hsp t (sort_mem hbs t htb)).2
        intro m hm
        obtain ⟨i, hi, rfl⟩ := List.mem_map.1 hm
        unfold backtrackOne
        split
        · exact ⟨rfl, fun j hj => by rw [Loop.inner, List.mem_singleton] at hj; exact hj ▸ .leaf rfl⟩
        · exact ⟨rfl, fun j hj => by
            rw [project, Loop.inner, List.mem_singleton] at hj
            exact hj ▸ alone_inner (hls' q hq) i hi⟩
  · obtain rfl := Option.some.inj h
    exact hls'

theorem levels_none {opt : Options} (h : opt.fs = none ∨ opt.ls = none) (ls : List (Loop D S)) :
    levels opt ls = (opt.f, opt.l) := by
  unfold levels
  rw [loopsGetFl_none h ls]
  rfl

theorem generateGeneral_alone {c : Ctx} (hfs : c.opt.fs = none ∨ c.opt.ls = none) (hl : 0 ≤ c.opt.l) {L s n : Nat}
    {gen : List (Loop D S) → D → Nat → Nat → Option (List (Loop D S))}
    (hgen : L = 0 ∨ (L + s : Int) < c.opt.l → ∀ ls d r, (∀ i ∈ ls, i.inner = []) → gen ls d (L + 1) s = some r →
      ∀ t ∈ r, Alone flags c.opt.l (L + 1) t)
    (hM : ¬ (1 < L ∧ c.opt.l ≤ (place flags (L - 1) : Int))) {ls r : List (Loop D S)} (hls : ∀ q ∈ ls, Flat q)
    (h : generateGeneral o n c gen L s ls = some r) : ∀ t ∈ r, Alone flags c.opt.l L t := by
  unfold generateGeneral at h
  rw [levels_none hfs] at h
  dsimp only at h
  split at h
  · exact absurd h (by simp)
  · rename_i r3 sep con hr3
    have h3 := step3_body (P := fun i => i.inner = []) hls hr3
    split at h
    · exact absurd h (by simp)
    · rename_i r3b hr3b
      have h3b := step3b_flat h3 hr3b
      split at h
      · exact absurd h (by simp)
      · rename_i r4 hr4
        refine step5_alone hM ?_ h
        unfold step4 at hr4
        split at hr4
        · rename_i hcond
          exact recurse_alone (hgen (by omega)) hM h3b hr4
        · intro t ht
          obtain ⟨q, hq, bs, hbs, htb⟩ := flatMapM_mem hr4 ht
          exact nestBelow_alone hM (h3b q hq) hbs t htb

theorem generateComponents_alone {c : Ctx} (hfs : c.opt.fs = none ∨ c.opt.ls = none) (hl : 0 ≤ c.opt.l) {L s n : Nat}
    {gen : List (Loop D S) → D → Nat → Nat → Option (List (Loop D S))}
    (hgen : L = 0 ∨ (L + s : Int) < c.opt.l → ∀ ls d r, (∀ i ∈ ls, i.inner = []) → gen ls d (L + 1) s = some r →
      ∀ t ∈ r, Alone flags c.opt.l (L + 1) t)
    (hM : ¬ (1 < L ∧ c.opt.l ≤ (place flags (L - 1) : Int))) {ls r : List (Loop D S)} (hls : ∀ q ∈ ls, Flat q)
    (h : generateComponents o n c gen L s ls = some r) : ∀ t ∈ r, Alone flags c.opt.l L t := by
  unfold generateComponents at h
  split at h
  · exact generateGeneral_alone hfs hl hgen hM hls h
  · split at h
    · exact absurd h (by simp)
    · rename_i cs hcs
      split at h
      · exact absurd h (by simp)
      · rename_i q hq
        obtain rfl := Option.some.inj h
        have hall : ∀ t ∈ q, Alone flags c.opt.l L t := by
          intro t ht
          obtain ⟨k, hk, bs, hbs, htb⟩ := flatMapM_mem hq ht
          have hk := ((componentsOf_spec (α := Unit) hcs).1 k hk).subset
          exact generateGeneral_alone hfs hl hgen hM (fun a ha => hls a (hk ha)) hbs t htb
        intro t ht
        have key : ∀ (ls : List (Loop D S)) (a : Loop D S), (∀ i ∈ a.inner, Alone flags c.opt.l (L + 1) i) →
            (∀ b ∈ ls, ∀ i ∈ b.inner, Alone flags c.opt.l (L + 1) i) →
            ∀ t ∈ combineFrom o a ls, ∀ i ∈ t.inner, Alone flags c.opt.l (L + 1) i := by
          intro ls
          induction ls with
          | nil =>
            intro a ha _ t ht
            rw [combineFrom, List.mem_singleton] at ht
            exact ht ▸ ha
          | cons b ls ih =>
            intro a ha hb t ht
            rw [combineFrom] at ht
            split at ht
            · refine ih _ (fun i hi => ?_) (fun x hx => hb x (by simp [hx])) t ht
              cases a
              rcases List.mem_append.1 hi with hi | hi
              · exact ha i hi
              · exact hb b (by simp) i hi
            · rcases List.mem_cons.1 ht with rfl | ht
              · exact ha
              · exact ih b (hb b (by simp)) (fun x hx => hb x (by simp [hx])) t ht
        cases q with
        | nil => simp [combine] at ht
        | cons a q => exact .node hM (key q a (alone_inner (hall a (by simp)))
            (fun b hb => alone_inner (hall b (by simp [hb]))) t ht)

theorem generateScalar_alone {c : Ctx} (W : WFScal c.scaldims) {L s M : Nat}
    (hc : levelIsConstant L s (isScal c.scaldims) = true)
    {gen : List (Loop D S) → Nat → Option (List (Loop D S))} (hp : Pos (isScal c.scaldims) L s)
    (hgen : ∀ B s' T, Pos (isScal c.scaldims) L s' → (∀ i ∈ B, i.inner = []) → gen B s' = some T →
      ∀ t ∈ T, Alone flags l M t)
    {B T : List (Loop D S)} (hB : ∀ i ∈ B, i.inner = [])
    (h : generateScalar o c gen L s B = some T) : ∀ t ∈ T, Alone flags l M t := by
  obtain ⟨hk, hrun⟩ := isRun_of_const W hc
  unfold generateScalar at h
  dsimp only at h
  generalize runLength c.scaldims (L + s - 1) = k at h hk hrun
  have hposn : Pos (isScal c.scaldims) L (s + k) := pos_scal hrun.1 hp hrun.2.1
  split at h
  · exact absurd h (by simp)
  rename_i srt hsrt
  have hsub : ∀ i ∈ srt, i.inner = [] := fun i hi =>
    hB i ((Verif.Props.ScalarSort.bubble_spec _ _ _ _ hsrt).1.subset hi)
  clear hsrt
  have key : ∀ (n : Nat) (ls T : List (Loop D S)), (∀ l ∈ ls, l.inner = []) →
      scalarLoop o c (fun g => gen g (s + k)) L s (s + k) n ls = some T → ∀ t ∈ T, Alone flags l M t := by
    intro n
    induction n with
    | zero =>
      intro ls T _ h
      cases ls with
      | nil =>
        simp only [scalarLoop, Option.some.injEq] at h
        subst h
        simp
      | cons l ls => simp [scalarLoop] at h
    | succ n ih =>
      intro ls T hsub h
      cases ls with
      | nil =>
        simp only [scalarLoop, Option.some.injEq] at h
        subst h
        simp
      | cons a ls =>
        rw [scalarLoop] at h
        obtain ⟨g1, _, _⟩ := span_group o c L s (s + k) a ls
        generalize (scalarGroup o c L s (s + k) a ls).1 = A at h g1
        generalize (scalarGroup o c L s (s + k) a ls).2 = R at h g1
        have hA : ∀ m ∈ a :: A, m.inner = [] := fun m hm => hsub m (by
          rw [← g1]
          rcases List.mem_cons.1 hm with rfl | hm
          · simp
          · simp [hm])
        have hR : ∀ m ∈ R, m.inner = [] := fun m hm => hsub m (by rw [← g1]; simp [hm])
        by_cases hm : more o a L (s + k) c.scaldims.length = true
        · rw [if_pos hm] at h
          split at h
          · exact absurd h (by simp)
          · rename_i r hr
            split at h
            · exact absurd h (by simp)
            · rename_i rs hrs
              obtain rfl := Option.some.inj h
              intro t ht
              rcases List.mem_append.1 ht with ht | ht
              · exact hgen _ _ _ hposn hA hr t ht
              · exact ih R rs hR hrs t ht
        · rw [if_neg hm] at h
          split at h
          · exact absurd h (by simp)
          · obtain rfl := Option.some.inj h
            exact fun t ht => .leaf (hA t ht)
          · rename_i hrs
            obtain rfl := Option.some.inj h
            intro t ht
            rcases List.mem_cons.1 ht with rfl | ht
            · exact .leaf (hA _ (by simp))
            · exact ih R _ hR hrs t ht
  exact key _ srt T hsub h

theorem generateRestricted_alone {c : Ctx} (W : WFScal c.scaldims) (hfs : c.opt.fs = none ∨ c.opt.ls = none)
    (hl : 0 ≤ c.opt.l) :
    ∀ (fuel : Nat) (orStop : Bool) (B : List (Loop D S)) (d : D) (L s : Nat) (T : List (Loop D S)),
      Pos (isScal c.scaldims) L s → ¬ (1 < L ∧ c.opt.l ≤ (place (isScal c.scaldims) (L - 1) : Int)) →
      (∀ i ∈ B, i.inner = []) → generateRestricted o c fuel orStop B d L s = some T →
      ∀ t ∈ T, Alone (isScal c.scaldims) c.opt.l L t := by
  intro fuel
  induction fuel with
  | zero => intro _ B d L s T _ _ _ h; simp [generateRestricted] at h
  | succ fuel ih =>
    intro orStop B d L s T hp hM hB h
    rw [generateRestricted] at h
    split at h
    · obtain rfl := Option.some.inj h
      intro t ht
      obtain ⟨b, hb, rfl⟩ := List.mem_map.1 ht
      have := hB b hb
      cases b
      exact .leaf this
    · split at h
      · rename_i hc
        exact generateScalar_alone W hc hp (fun B' s' T' hp' hB' h' => ih false B' d L s' T' hp' hM hB' h') hB h
      · rename_i hc
        have hc : levelIsConstant L s (isScal c.scaldims) = false := by simpa using hc
        refine generateComponents_alone hfs hl (fun hlt B' d' T' hB' h' =>
          ih true B' d' (L + 1) s T' (pos_next hp hc) ?_ hB' h') hM ?_ h
        · rw [Nat.add_sub_cancel, place_eq _ _ _ hp hc]
          omega
        · intro q hq
          obtain ⟨b, hb, rfl⟩ := List.mem_map.1 hq
          exact ⟨rfl, fun i hi => by rw [project, Loop.inner, List.mem_singleton] at hi; exact hi ▸ hB b hb⟩

end

/-- **C72.**  With `-l`, a loop that is inside of a loop at a position from `l` on holds one loop or statement. -/
theorem C72_alone {c : Ctx} (W : WFScal c.scaldims) (hfs : c.opt.fs = none ∨ c.opt.ls = none) (hl : 0 ≤ c.opt.l)
    {fuel : Nat} {B T : List (Loop D S)} {ctx : D} (hB : ∀ b ∈ B, b.inner = [])
    (h : generate o c fuel B ctx 0 0 = some T) : ∀ t ∈ T, Alone (isScal c.scaldims) c.opt.l 0 t := by
  unfold generate at h
  split at h
  · obtain rfl := Option.some.inj h
    simp
  · exact generateRestricted_alone W hfs hl fuel true _ ctx 0 0 T (Or.inl ⟨rfl, rfl⟩) (by omega)
      (restrictAll_flat hB) h

/-! ## The other loops do not change -/

section
variable {flags : List Bool} {l : Int}

theorem Same.append {M : Nat} {a a' b b' : List (Loop D S)} (h1 : Same flags l M a a') (h2 : Same flags l M b b') :
    Same flags l M (a ++ b) (a' ++ b') := by
  induction h1 with
  | nil => exact h2
  | cons dom block inner _ _ ih => exact .cons dom block inner (ih h2)

/-- The options: no backtracking, strides, unrolling or levels per statement. -/
structure Simple (opt : Options) : Prop where
  fs : opt.fs = none ∨ opt.ls = none
  backtrack : opt.backtrack = false
  strides : opt.strides = false
  unroll : opt.firstUnroll < 0

theorem Same.leaves {M : Nat} : ∀ {ls : List (Loop D S)}, (∀ a ∈ ls, a.inner = []) → Same flags l M ls ls
  | [], _ => .nil
  | a :: ls, h => .cons rfl rfl (fun _ => by rw [h a (by simp)]; exact .nil) (Same.leaves (fun b hb => h b (by simp [hb])))

theorem recurseInner_same {M s nb : Nat} {gen gen' : List (Loop D S) → Option (List (Loop D S))}
    (hgen : ∀ ls r r', (∀ i ∈ ls, i.inner = []) → gen ls = some r → gen' ls = some r' → Same flags l M r r') :
    ∀ (n : Nat) (ls r r' : List (Loop D S)), (∀ i ∈ ls, i.inner = []) → recurseInner o gen M s nb n ls = some r →
      recurseInner o gen' M s nb n ls = some r' → Same flags l M r r' := by
  intro n
  induction n with
  | zero =>
    intro ls r r' hls h h'
    cases ls with
    | nil =>
      simp only [recurseInner, Option.some.injEq] at h h'
      subst h h'
      exact .nil
    | cons a ls => simp [recurseInner] at h
  | succ n ih =>
    intro ls r r' hls h h'
    cases ls with
    | nil =>
      simp only [recurseInner, Option.some.injEq] at h h'
      subst h h'
      exact .nil
    | cons a ls =>
      rw [recurseInner] at h h'
      have hsp : (spanMore o M s nb (a :: ls)).1 ++ (spanMore o M s nb (a :: ls)).2 = a :: ls := by
        simp [spanMore, List.span_eq_takeWhile_dropWhile]
      by_cases hm : more o a M s nb = true
      · rw [if_pos hm] at h h'
        split at h
        · exact absurd h (by simp)
        · rename_i q hq
          split at h
          · exact absurd h (by simp)
          · rename_i rs hrs
            split at h'
            · exact absurd h' (by simp)
            · rename_i q' hq'
              split at h'
              · exact absurd h' (by simp)
              · rename_i rs' hrs'
                obtain rfl := Option.some.inj h
                obtain rfl := Option.some.inj h'
                exact (hgen _ _ _ (fun i hi => hls i (by rw [← hsp]; exact List.mem_append_left _ hi)) hq hq').append
                  (ih _ _ _ (fun i hi => hls i (by rw [← hsp]; exact List.mem_append_right _ hi)) hrs hrs')
      · rw [if_neg hm] at h h'
        split at h
        · exact absurd h (by simp)
        · rename_i rs hrs
          split at h'
          · exact absurd h' (by simp)
          · rename_i rs' hrs'
            obtain rfl := Option.some.inj h
            obtain rfl := Option.some.inj h'
            exact .cons rfl rfl (fun _ => by rw [hls a (by simp)]; exact .nil)
              (ih _ _ _ (fun i hi => hls i (by simp [hi])) hrs hrs')

theorem flatMapM_same {M : Nat} {f f' : Loop D S → Option (List (Loop D S))} : ∀ {ls r r' : List (Loop D S)},
    (∀ a ∈ ls, ∀ b b', f a = some b → f' a = some b' → Same flags l M b b') → flatMapM f ls = some r →
    flatMapM f' ls = some r' → Same flags l M r r'
  | [], r, r', _, h, h' => by
    simp only [flatMapM, Option.some.injEq] at h h'
    subst h h'
    exact .nil
  | a :: ls, r, r', hf, h, h' => by
    simp only [flatMapM] at h h'
    split at h
    · exact absurd h (by simp)
    · rename_i b hb
      split at h
      · exact absurd h (by simp)
      · rename_i bs hbs
        split at h'
        · exact absurd h' (by simp)
        · rename_i b' hb'
          split at h'
          · exact absurd h' (by simp)
          · rename_i bs' hbs'
            obtain rfl := Option.some.inj h
            obtain rfl := Option.some.inj h'
            exact (hf a (by simp) b b' hb hb').append (flatMapM_same (fun x hx => hf x (by simp [hx])) hbs hbs')

theorem loopRecurse_eq {c : Ctx} (hc : Simple c.opt) {con : Bool} {L s : Nat}
    {gen : List (Loop D S) → D → Nat → Nat → Option (List (Loop D S))} (q : Loop D S) :
    loopRecurse o c gen con L s q = loopRecurseConst o c gen L s q := by
  have : recursePrepare o c con L s q = some (.inl q) := by
    have := hc.unroll
    unfold recursePrepare
    dsimp only
    rw [if_neg (fun h : con = false ∧ 0 ≤ c.opt.firstUnroll ∧ c.opt.firstUnroll ≤ L + s => by omega),
      if_neg (by simp [hc.strides])]
  rw [loopRecurse, this]

theorem recurseBelow_shape {c : Ctx} {L s : Nat}
    {gen : List (Loop D S) → D → Nat → Nat → Option (List (Loop D S))} {q t : Loop D S}
    (h : recurseBelow o c gen L s q = some t) : t.dom = q.dom ∧ t.block = q.block ∧ ∃ d : D,
      recurseInner o (fun ls => gen ls d (L + 1) s) (L + 1) s c.scaldims.length q.inner.length q.inner = some t.inner ∧
      d = (match q.stride with | none => q.dom | some s => o.addStride q.dom s) := by
  obtain ⟨d, ot, st, b, inner⟩ := q
  unfold recurseBelow at h
  dsimp only at h
  have he : (if 0 < L ∧ c.opt.otl = true then loopOtl o L (Loop.mk d ot st b inner) else Loop.mk d ot st b inner) =
      Loop.mk d (if 0 < L ∧ c.opt.otl = true then ot || o.isOtl d L else ot) st b inner := by
    split <;> rfl
  rw [he] at h
  split at h
  · exact absurd h (by simp)
  · rename_i into hinto
    obtain rfl := Option.some.inj h
    exact ⟨rfl, rfl, _, hinto, rfl⟩

theorem step4_same {c : Ctx} (hc : Simple c.opt) (opt' : Options) (he : opt' = { c.opt with l := -1 }) {L s n n' : Nat}
    {con : Bool} (hpl : place flags L = L + s)
    {gen gen' : List (Loop D S) → D → Nat → Nat → Option (List (Loop D S))}
    (hgen : ∀ ls d r r', (∀ i ∈ ls, i.inner = []) → gen ls d (L + 1) s = some r → gen' ls d (L + 1) s = some r' →
      Same flags c.opt.l (L + 1) r r') {ls r r' : List (Loop D S)} (hls : ∀ q ∈ ls, Flat q)
    (h : step4 o n c gen L s c.opt.l con ls = some r)
    (h' : step4 o n' ⟨opt', c.scaldims⟩ gen' L s opt'.l con ls = some r') : Same flags c.opt.l L r r' := by
  have hc' : Simple opt' := by subst he; exact ⟨hc.fs, hc.backtrack, hc.strides, hc.unroll⟩
  unfold step4 at h h'
  rw [if_pos (by subst he; simp)] at h'
  by_cases hcond : L = 0 ∨ (L + s : Int) < c.opt.l ∨ c.opt.l < 0
  · rw [if_pos hcond] at h
    refine flatMapM_same (fun q hq b b' hb hb' => ?_) h h'
    rw [loopRecurse_eq hc, loopRecurseConst, Option.map_eq_some_iff] at hb
    rw [loopRecurse_eq hc', loopRecurseConst, Option.map_eq_some_iff] at hb'
    obtain ⟨t, ht, rfl⟩ := hb
    obtain ⟨t', ht', rfl⟩ := hb'
    obtain ⟨a1, a2, d, a3, rfl⟩ := recurseBelow_shape ht
    obtain ⟨b1, b2, d, b3, rfl⟩ := recurseBelow_shape ht'
    exact .cons (a1.trans b1.symm) (a2.trans b2.symm)
      (fun _ => recurseInner_same (fun ls r r' => hgen ls _ r r') _ _ _ _ (hls q hq).2 a3 b3) .nil
  · rw [if_neg hcond] at h
    refine flatMapM_same (fun q hq b b' hb hb' => ?_) h h'
    rw [loopRecurse_eq hc', loopRecurseConst, Option.map_eq_some_iff] at hb'
    obtain ⟨t', ht', rfl⟩ := hb'
    obtain ⟨b1, b2, _⟩ := recurseBelow_shape ht'
    unfold nestBelow at hb
    split at hb
    · exact absurd hb (by simp)
    · obtain rfl := Option.some.inj hb
      exact .cons b1.symm ((hls q hq).1 ▸ b2.symm) (fun hlt => by rw [hpl] at hlt; omega) .nil

theorem combineFrom_same {M : Nat} : ∀ {ls ls' : List (Loop D S)} {a a' : Loop D S}, Same flags l M (a :: ls) (a' :: ls') →
    Same flags l M (combineFrom o a ls) (combineFrom o a' ls')
  | [], ls', a, a', h => by
    cases h with
    | cons dom block inner rest =>
      cases rest
      exact .cons dom block inner .nil
  | b :: ls, ls', a, a', h => by
    cases h with
    | cons dom block inner rest =>
      cases rest with
      | @cons _ _ b' _ ls' dom2 block2 inner2 rest2 =>
        rw [combineFrom, combineFrom, ← dom, ← dom2]
        by_cases he : o.lazyEqual a.dom b.dom = true
        · rw [if_pos he, if_pos he]
          refine combineFrom_same (.cons ?_ ?_ ?_ rest2)
          · cases a; cases a'; exact dom
          · cases a; cases a'; exact block
          · intro hlt
            have := (inner hlt).append (inner2 hlt)
            cases a; cases a'
            exact this
        · rw [if_neg he, if_neg he]
          exact .cons dom block inner (combineFrom_same (.cons dom2 block2 inner2 rest2))

theorem generateGeneral_same {c : Ctx} (hc : Simple c.opt) (opt' : Options) (he : opt' = { c.opt with l := -1 })
    {L s n : Nat} (hpl : place flags L = L + s)
    {gen gen' : List (Loop D S) → D → Nat → Nat → Option (List (Loop D S))}
    (hgen : ∀ ls d r r', (∀ i ∈ ls, i.inner = []) → gen ls d (L + 1) s = some r → gen' ls d (L + 1) s = some r' →
      Same flags c.opt.l (L + 1) r r') {ls r r' : List (Loop D S)} (hls : ∀ q ∈ ls, Flat q)
    (h : generateGeneral o n c gen L s ls = some r)
    (h' : generateGeneral o n ⟨opt', c.scaldims⟩ gen' L s ls = some r') : Same flags c.opt.l L r r' := by
  have hc' : Simple opt' := by subst he; exact ⟨hc.fs, hc.backtrack, hc.strides, hc.unroll⟩
  have hf : opt'.f = c.opt.f := by rw [he]
  have h3e : ∀ ls : List (Loop D S), step3 o n ⟨opt', c.scaldims⟩ L s opt'.f ls = step3 o n c L s c.opt.f ls := by
    intro ls
    rw [hf]
    unfold step3
    subst he
    have hme : merge o n L { c.opt with l := -1 } ls = merge o n L c.opt ls := by
      have hb : ∀ d, boundingDomain o { c.opt with l := -1 } d = boundingDomain o c.opt d := fun d => rfl
      have hsplit : ∀ (t : D) (inner : List (Loop D S)) (k : Nat) (d : D) (res : List (Loop D S)),
          mergeSplit o { c.opt with l := -1 } t inner k d res = mergeSplit o c.opt t inner k d res := by
        intro t inner k
        induction k with
        | zero => intro d res; rfl
        | succ k ih => intro d res; rw [mergeSplit, mergeSplit]; simp only [hb, ih]
      cases ls with
      | nil => rfl
      | cons a ls => rw [merge, merge]; simp only [hb, hsplit]
    rw [hme]
  have h3be : ∀ (b : Bool) (ls : List (Loop D S)), step3b o ⟨opt', c.scaldims⟩ L s b ls = step3b o c L s b ls :=
    fun b ls => rfl
  have h5 : ∀ (k : Ctx) (first last : Int) (ls : List (Loop D S)), Simple k.opt → step5 o n k L s first last ls = some ls := by
    intro k first last ls hk
    unfold step5
    simp [hk.strides, hk.backtrack]
  unfold generateGeneral at h h'
  rw [levels_none hc.fs] at h
  rw [levels_none hc'.fs] at h'
  dsimp only at h h'
  rw [h3e] at h'
  split at h
  · exact absurd h (by simp)
  · rename_i r3 sep con hr3
    rw [hr3] at h'
    dsimp only at h'
    have h3 := step3_body (P := fun i => i.inner = []) hls hr3
    rw [h3be] at h'
    split at h
    · exact absurd h (by simp)
    · rename_i r3b hr3b
      rw [hr3b] at h'
      dsimp only at h'
      have h3b := step3b_flat h3 hr3b
      split at h
      · exact absurd h (by simp)
      · rename_i r4 hr4
        split at h'
        · exact absurd h' (by simp)
        · rename_i r4' hr4'
          rw [h5 c _ _ _ hc] at h
          rw [h5 ⟨opt', c.scaldims⟩ _ _ _ hc'] at h'
          obtain rfl := Option.some.inj h
          obtain rfl := Option.some.inj h'
          exact step4_same hc opt' he hpl hgen h3b hr4 hr4'

theorem generateComponents_same {c : Ctx} (hc : Simple c.opt) (opt' : Options) (he : opt' = { c.opt with l := -1 })
    {L s n : Nat} (hpl : place flags L = L + s)
    {gen gen' : List (Loop D S) → D → Nat → Nat → Option (List (Loop D S))}
    (hgen : ∀ ls d r r', (∀ i ∈ ls, i.inner = []) → gen ls d (L + 1) s = some r → gen' ls d (L + 1) s = some r' →
      Same flags c.opt.l (L + 1) r r') {ls r r' : List (Loop D S)} (hls : ∀ q ∈ ls, Flat q)
    (h : generateComponents o n c gen L s ls = some r)
    (h' : generateComponents o n ⟨opt', c.scaldims⟩ gen' L s ls = some r') : Same flags c.opt.l L r r' := by
  unfold generateComponents at h h'
  by_cases h0 : L = 0 ∨ ls.length ≤ 1
  · rw [if_pos h0] at h h'
    exact generateGeneral_same hc opt' he hpl hgen hls h h'
  · rw [if_neg h0] at h h'
    dsimp only at h'
    split at h
    · exact absurd h (by simp)
    · rename_i cs hcs
      rw [hcs] at h'
      dsimp only at h'
      split at h
      · exact absurd h (by simp)
      · rename_i q hq
        obtain rfl := Option.some.inj h
        split at h'
        · exact absurd h' (by simp)
        · rename_i q' hq'
          obtain rfl := Option.some.inj h'
          have key : ∀ (cs : List (List (Loop D S))) (q q' : List (Loop D S)), (∀ k ∈ cs, ∀ a ∈ k, a ∈ ls) →
              flatMapM (generateGeneral o n c gen L s) cs = some q →
              flatMapM (generateGeneral o n ⟨opt', c.scaldims⟩ gen' L s) cs = some q' → Same flags c.opt.l L q q' := by
            intro cs
            induction cs with
            | nil =>
              intro q q' _ h h'
              simp only [flatMapM, Option.some.injEq] at h h'
              subst h h'
              exact .nil
            | cons k cs ih =>
              intro q q' hk h h'
              simp only [flatMapM] at h h'
              split at h
              · exact absurd h (by simp)
              · rename_i b hb
                split at h
                · exact absurd h (by simp)
                · rename_i bs hbs
                  split at h'
                  · exact absurd h' (by simp)
                  · rename_i b' hb'
                    split at h'
                    · exact absurd h' (by simp)
                    · rename_i bs' hbs'
                      obtain rfl := Option.some.inj h
                      obtain rfl := Option.some.inj h'
                      exact (generateGeneral_same hc opt' he hpl hgen (fun a ha => hls a (hk k (by simp) a ha)) hb hb').append
                        (ih _ _ (fun k hk' => hk k (by simp [hk'])) hbs hbs')
          have hs := key cs q q' (fun k hk => ((componentsOf_spec (α := Unit) hcs).1 k hk).subset) hq hq'
          cases q with
          | nil => cases hs; exact .nil
          | cons a q => cases q' with
            | nil => cases hs
            | cons a' q' => exact combineFrom_same hs

theorem generateScalar_same {c : Ctx} (W : WFScal c.scaldims) (opt' : Options) {L s M : Nat}
    (hc : levelIsConstant L s (isScal c.scaldims) = true)
    {gen gen' : List (Loop D S) → Nat → Option (List (Loop D S))} (hp : Pos (isScal c.scaldims) L s)
    (hgen : ∀ B s' T T', Pos (isScal c.scaldims) L s' → (∀ i ∈ B, i.inner = []) → gen B s' = some T →
      gen' B s' = some T' → Same flags l M T T')
    {B T T' : List (Loop D S)} (hB : ∀ i ∈ B, i.inner = [])
    (h : generateScalar o c gen L s B = some T) (h' : generateScalar o ⟨opt', c.scaldims⟩ gen' L s B = some T') :
    Same flags l M T T' := by
  obtain ⟨hk, hrun⟩ := isRun_of_const W hc
  unfold generateScalar at h h'
  dsimp only at h h'
  generalize runLength c.scaldims (L + s - 1) = k at h h' hk hrun
  have hposn : Pos (isScal c.scaldims) L (s + k) := pos_scal hrun.1 hp hrun.2.1
  split at h
  · exact absurd h (by simp)
  rename_i srt hsrt
  rw [hsrt] at h'
  dsimp only at h'
  have hsub : ∀ i ∈ srt, i.inner = [] := fun i hi =>
    hB i ((Verif.Props.ScalarSort.bubble_spec _ _ _ _ hsrt).1.subset hi)
  clear hsrt
  have key : ∀ (n : Nat) (ls T T' : List (Loop D S)), (∀ l ∈ ls, l.inner = []) →
      scalarLoop o c (fun g => gen g (s + k)) L s (s + k) n ls = some T →
      scalarLoop o ⟨opt', c.scaldims⟩ (fun g => gen' g (s + k)) L s (s + k) n ls = some T' → Same flags l M T T' := by
    intro n
    induction n with
    | zero =>
      intro ls T T' _ h h'
      cases ls with
      | nil =>
        simp only [scalarLoop, Option.some.injEq] at h h'
        subst h h'
        exact .nil
      | cons l ls => simp [scalarLoop] at h
    | succ n ih =>
      intro ls T T' hsub h h'
      cases ls with
      | nil =>
        simp only [scalarLoop, Option.some.injEq] at h h'
        subst h h'
        exact .nil
      | cons a ls =>
        rw [scalarLoop] at h h'
        obtain ⟨g1, _, _⟩ := span_group o c L s (s + k) a ls
        have hg : scalarGroup o ⟨opt', c.scaldims⟩ L s (s + k) a ls = scalarGroup o c L s (s + k) a ls := rfl
        rw [hg] at h'
        generalize (scalarGroup o c L s (s + k) a ls).1 = A at h h' g1
        generalize (scalarGroup o c L s (s + k) a ls).2 = R at h h' g1
        have hA : ∀ m ∈ a :: A, m.inner = [] := fun m hm => hsub m (by
          rw [← g1]
          rcases List.mem_cons.1 hm with rfl | hm
          · simp
          · simp [hm])
        have hR : ∀ m ∈ R, m.inner = [] := fun m hm => hsub m (by rw [← g1]; simp [hm])
        by_cases hm : more o a L (s + k) c.scaldims.length = true
        · rw [if_pos hm] at h h'
          split at h
          · exact absurd h (by simp)
          · rename_i r hr
            split at h
            · exact absurd h (by simp)
            · rename_i rs hrs
              split at h'
              · exact absurd h' (by simp)
              · rename_i r' hr'
                split at h'
                · exact absurd h' (by simp)
                · rename_i rs' hrs'
                  obtain rfl := Option.some.inj h
                  obtain rfl := Option.some.inj h'
                  exact (hgen _ _ _ _ hposn hA hr hr').append (ih R rs rs' hR hrs hrs')
        · rw [if_neg hm] at h h'
          cases hx : scalarLoop o c (fun g => gen g (s + k)) L s (s + k) n R with
          | none => rw [hx] at h; exact absurd h (by simp)
          | some rs =>
            cases hx' : scalarLoop o ⟨opt', c.scaldims⟩ (fun g => gen' g (s + k)) L s (s + k) n R with
            | none => rw [hx'] at h'; exact absurd h' (by simp)
            | some rs' =>
              have hs := ih R rs rs' hR hx hx'
              rw [hx] at h
              rw [hx'] at h'
              have ha : a.inner = [] := hA a (by simp)
              cases hs with
              | nil =>
                obtain rfl := Option.some.inj h
                obtain rfl := Option.some.inj h'
                exact Same.leaves hA
              | cons dom block inner rest =>
                obtain rfl := Option.some.inj h
                obtain rfl := Option.some.inj h'
                exact .cons rfl rfl (fun _ => by rw [ha]; exact .nil) (.cons dom block inner rest)
  exact key _ srt T T' hsub h h'

theorem generateRestricted_same {c : Ctx} (W : WFScal c.scaldims) (hc : Simple c.opt) (opt' : Options)
    (he : opt' = { c.opt with l := -1 }) :
    ∀ (fuel : Nat) (orStop : Bool) (B : List (Loop D S)) (d : D) (L s : Nat) (T T' : List (Loop D S)),
      Pos (isScal c.scaldims) L s → (∀ i ∈ B, i.inner = []) → generateRestricted o c fuel orStop B d L s = some T →
      generateRestricted o ⟨opt', c.scaldims⟩ fuel orStop B d L s = some T' →
      Same (isScal c.scaldims) c.opt.l L T T' := by
  intro fuel
  induction fuel with
  | zero => intro _ B d L s T T' _ _ h; simp [generateRestricted] at h
  | succ fuel ih =>
    intro orStop B d L s T T' hp hB h h'
    rw [generateRestricted] at h h'
    have hstop : opt'.stop = c.opt.stop := by rw [he]
    dsimp only at h'
    rw [hstop] at h'
    by_cases h0 : orStop = true ∧ 0 ≤ c.opt.stop ∧ c.opt.stop + 1 ≤ L + s
    · rw [if_pos h0] at h h'
      obtain rfl := Option.some.inj h
      obtain rfl := Option.some.inj h'
      refine Same.leaves (fun t ht => ?_)
      obtain ⟨b, hb, rfl⟩ := List.mem_map.1 ht
      have := hB b hb
      cases b
      exact this
    · rw [if_neg h0] at h h'
      by_cases hk : levelIsConstant L s (isScal c.scaldims) = true
      · rw [if_pos hk] at h h'
        exact generateScalar_same W opt' hk hp
          (fun B' s' T1 T2 hp' hB' h1 h2 => ih false B' d L s' T1 T2 hp' hB' h1 h2) hB h h'
      · rw [if_neg hk] at h h'
        have hk : levelIsConstant L s (isScal c.scaldims) = false := by simpa using hk
        refine generateComponents_same hc opt' he (place_eq _ _ _ hp hk) (fun B' d' T1 T2 hB' h1 h2 =>
          ih true B' d' (L + 1) s T1 T2 (pos_next hp hk) hB' h1 h2) ?_ h h'
        intro q hq
        obtain ⟨b, hb, rfl⟩ := List.mem_map.1 hq
        exact ⟨rfl, fun i hi => by rw [project, Loop.inner, List.mem_singleton] at hi; exact hi ▸ hB b hb⟩

end

/-- **C72.**  With `-l`, the loops up to position `l` and the statements around them are the same as without. -/
theorem C72_same_above {c : Ctx} (W : WFScal c.scaldims) (hc : Simple c.opt) {fuel : Nat} {B T T' : List (Loop D S)} {ctx : D}
    (hB : ∀ b ∈ B, b.inner = []) (h : generate o c fuel B ctx 0 0 = some T)
    (h' : generate o ⟨{ c.opt with l := -1 }, c.scaldims⟩ fuel B ctx 0 0 = some T') :
    Same (isScal c.scaldims) c.opt.l 0 T T' := by
  unfold generate at h h'
  by_cases h0 : (restrictAll o B ctx).isEmpty = true
  · rw [if_pos h0] at h h'
    obtain rfl := Option.some.inj h
    obtain rfl := Option.some.inj h'
    exact .nil
  · rw [if_neg h0] at h h'
    exact generateRestricted_same W hc _ rfl fuel true _ ctx 0 0 T T' (Or.inl ⟨rfl, rfl⟩) (restrictAll_flat hB) h h'

/-! ## Example: the one of the manual -/

section
open Verif.BoxDom Verif.Props.Generate Verif.Props.Simplify

/-- `S1` in a loop over `i`, `S2` and `S3` in loops over `i` and `j`. -/
def exL : List (Loop BD (Int × Int)) :=
  [stmt 1 [] (box 1 [[1], [2]]), stmt 2 [] (box 2 [[1, 1], [1, 2], [2, 1], [2, 2]]),
    stmt 3 [] (box 2 [[1, 1], [1, 2], [2, 1], [2, 2]])]

/-- `-l 1`. -/
def exLC : Ctx := ⟨{ l := 1 }, []⟩

/-- With `-l 1` there are two loops over `j`, for `S2` and for `S3`; without, there is one.  The loop over `i` is the
    same. -/
example : ∃ T T', generate ops exLC 20 exL (box 0 [[]]) 0 0 = some T ∧
    generate ops ⟨{ exLC.opt with l := -1 }, exLC.scaldims⟩ 20 exL (box 0 [[]]) 0 0 = some T' ∧
    (flats 0 T).map (fun x => (x.1, x.2.2)) = [(0, []), (1, []), (2, [1]), (2, []), (3, [2]), (2, []), (3, [3])] ∧
    (flats 0 T').map (fun x => (x.1, x.2.2)) = [(0, []), (1, []), (2, [1]), (2, []), (3, [2]), (3, [3])] ∧
    (∀ t ∈ T, Alone [] 1 0 t) ∧ Same [] 1 0 T T' := by
  have h1 : (generate ops exLC 20 exL (box 0 [[]]) 0 0).map (fun T => (flats 0 T).map (fun x => (x.1, x.2.2))) =
      some [(0, []), (1, []), (2, [1]), (2, []), (3, [2]), (2, []), (3, [3])] := by decide +kernel
  have h2 : (generate ops ⟨{ exLC.opt with l := -1 }, exLC.scaldims⟩ 20 exL (box 0 [[]]) 0 0).map
      (fun T => (flats 0 T).map (fun x => (x.1, x.2.2))) =
      some [(0, []), (1, []), (2, [1]), (2, []), (3, [2]), (3, [3])] := by decide +kernel
  obtain ⟨T, hT, e1⟩ := Option.map_eq_some_iff.1 h1
  obtain ⟨T', hT', e2⟩ := Option.map_eq_some_iff.1 h2
  have hw : WFScal exLC.scaldims := by intro i n hi; simp [exLC] at hi
  have hB : ∀ b ∈ exL, b.inner = [] := by
    intro b hb
    simp only [exL, List.mem_cons, List.not_mem_nil, or_false] at hb
    rcases hb with rfl | rfl | rfl <;> rfl
  exact ⟨T, T', hT, hT', e1, e2, C72_alone hw (Or.inl rfl) (by decide) hB hT,
    C72_same_above hw ⟨Or.inl rfl, rfl, rfl, by decide⟩ hB hT hT'⟩

end
end Verif.Props.LastLevel
