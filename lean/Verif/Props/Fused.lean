import Verif.Props.OneCopy
import Verif.Lemmas.BoxDom
import Mathlib.Data.List.TakeWhile

/-! # C71: statements with the same domain share one loop nest -/

namespace Verif.Props.Fused
open Verif.Loop Verif.ScalarSort Verif.Gen

variable {D S C Par : Type} {o : DomOps D S C} {mem : D → Par × Pt → Prop}

/-! ## Specification -/

/-- At most one loop on each of `k` levels, and inside of them the statements `bs`, in this order. -/
def Nest : Nat → List (Loop D S) → List (Option Block) → Prop
  | 0, ls, bs => ls = [] ∨ ls.map Loop.block = bs
  | k + 1, ls, bs => ls = [] ∨ ∃ d ot st inner, ls = [.mk d ot st none inner] ∧ Nest k inner bs

/-- The options: no separation, no unrolling, no `-l`, no `-stop`, no levels per statement. -/
structure Plain (opt : Options) : Prop where
  f : opt.f < 0
  l : opt.l < 0
  stop : opt.stop < 0
  unroll : opt.firstUnroll < 0
  fs : opt.fs = none ∨ opt.ls = none

/-! ## Proofs -/

theorem nest_nil (k : Nat) (bs : List (Option Block)) : Nest k ([] : List (Loop D S)) bs := by
  cases k <;> exact Or.inl rfl

/-- Restriction treats loops with the same domain alike. -/
theorem restrictAll_all {d ctx : D} {ls : List (Loop D S)} (h : ∀ l ∈ ls, l.dom = d) :
    restrictAll o ls ctx = [] ∨ ∃ d', (∀ l ∈ restrictAll o ls ctx, l.dom = d') ∧
      (restrictAll o ls ctx).map Loop.block = ls.map Loop.block := by
  let nd := if o.dim ctx < o.dim d then o.inter (o.extend ctx (o.dim d)) d else o.inter ctx d
  by_cases he : o.isEmpty nd = true
  · left
    unfold restrictAll
    rw [List.filterMap_eq_nil_iff]
    intro l hl
    unfold restrict
    rw [h l hl]
    exact if_pos he
  · right
    have e : restrictAll o ls ctx = ls.map (fun l => Loop.mk nd false none l.block l.inner) := by
      unfold restrictAll
      rw [← List.filterMap_eq_map]
      refine List.filterMap_congr (fun l hl => ?_)
      unfold restrict
      rw [h l hl]
      exact if_neg he
    refine ⟨nd, ?_, ?_⟩
    · rw [e]
      intro l hl
      obtain ⟨m, _, rfl⟩ := List.mem_map.1 hl
      rfl
    · rw [e, List.map_map]
      rfl

/-- Loops with the same domain are one component. -/
theorem components_all (heq : ∀ d, o.lazyEqual d d = true) {d : D} {L s : Nat} {sd : List Nat} {ls : List (Loop D S)}
    (h0 : ls ≠ []) (h : ∀ l ∈ ls, l.dom = d) :
    componentsOf (fun a b => innerFollows o a b L s sd) ls = some [ls] := by
  obtain ⟨cs, h1, h2, h3, h4, _⟩ := Verif.Props.Tarjan.C21_components
    (edge (fun a b => innerFollows o a b L s sd) ls) ls.length (fun _ => (0, false))
  have hedge : ∀ i j, i < ls.length → j < ls.length → edge (fun a b => innerFollows o a b L s sd) ls i j = true := by
    intro i j hi hj
    unfold edge
    rw [List.getElem?_eq_getElem hi, List.getElem?_eq_getElem hj]
    dsimp only
    unfold innerFollows
    rw [h _ (List.getElem_mem hi), h _ (List.getElem_mem hj), heq]
    rfl
  have hreach : ∀ i j, i < ls.length → j < ls.length →
      Verif.Props.Tarjan.Reach (edge (fun a b => innerFollows o a b L s sd) ls) ls.length i j := by
    intro i j hi hj
    by_cases hij : i = j
    · rw [hij]
    · exact Relation.ReflTransGen.single ⟨hi, hj, hij, hedge i j hi hj⟩
  have hpos : 0 < ls.length := List.length_pos_iff.2 h0
  have hmem : ∀ c ∈ cs, ∀ x ∈ c, x < ls.length := by
    intro c hc x hx
    have := h2.subset (List.mem_flatten.2 ⟨c, hc, hx⟩)
    simpa using this
  have hone : cs = [List.range ls.length] := by
    have hall : ∀ c ∈ cs, c = List.range ls.length := by
      intro c hc
      obtain ⟨x, hx⟩ := List.exists_mem_of_ne_nil _ (h3 c hc).1
      have hxl := hmem c hc x hx
      have hp : c.Perm (List.range ls.length) := by
        refine (List.perm_ext_iff_of_nodup ?_ List.nodup_range).2 (fun y => ?_)
        · exact (h3 c hc).2.imp (fun h => Nat.ne_of_lt h)
        · rw [List.mem_range]
          exact ⟨fun hy => hmem c hc y hy, fun hy => (h4 c hc x hx y).2 ⟨hreach _ _ hxl hy, hreach _ _ hy hxl⟩⟩
      exact hp.eq_of_pairwise (fun a b _ _ h1 h2 => by omega) (h3 c hc).2 List.pairwise_lt_range
    cases cs with
    | nil =>
      have := h2.length_eq
      simp at this
      omega
    | cons c cs =>
      have hc := hall c (by simp)
      cases cs with
      | nil => rw [hc]
      | cons c' cs =>
        have hc' := hall c' (by simp)
        have := h2.length_eq
        rw [hc, hc'] at this
        simp only [List.flatten_cons, List.length_append, List.length_range] at this
        omega
  unfold componentsOf
  rw [h1, hone]
  simp only [List.map_cons, List.map_nil, Option.some.injEq, List.cons.injEq, and_true, List.filterMap_map]
  have : (fun i : Int => ls[i.toNat]?) ∘ (fun x : Nat => (x : Int)) = fun i : Nat => ls[i]? := by
    funext i
    simp
  rw [this]
  exact filterMap_range ls

theorem recurseInner_all {gen : List (Loop D S) → Option (List (Loop D S))} {L s nb k : Nat} {ls r : List (Loop D S)}
    (hm : ∀ l ∈ ls, more o l L s nb = true) (h0 : ls ≠ []) (h : recurseInner o gen L s nb k ls = some r) :
    gen ls = some r := by
  cases ls with
  | nil => exact absurd rfl h0
  | cons l ls =>
    cases k with
    | zero => simp [recurseInner] at h
    | succ k =>
      have e : spanMore o L s nb (l :: ls) = (l :: ls, []) := by
        unfold spanMore
        rw [List.span_eq_takeWhile_dropWhile, List.takeWhile_eq_self_iff.2 (fun x hx => hm x hx),
          List.dropWhile_eq_nil_iff.2 (fun x hx => hm x hx)]
      rw [recurseInner, if_pos (hm l (by simp)), e] at h
      split at h
      · exact absurd h (by simp)
      · rename_i r' hr
        dsimp only at hr
        have e2 : recurseInner o gen L s nb k [] = some [] := by cases k <;> rfl
        rw [e2] at h
        dsimp only at h
        rw [List.append_nil] at h
        rw [hr, h]

theorem recurseInner_none {gen : List (Loop D S) → Option (List (Loop D S))} {L s nb : Nat} : ∀ {k : Nat}
    {ls r : List (Loop D S)}, (∀ l ∈ ls, more o l L s nb = false) → recurseInner o gen L s nb k ls = some r → r = ls
  | k, [], r, _, h => by
    have e2 : recurseInner o gen L s nb k [] = some [] := by cases k <;> rfl
    rw [e2] at h
    exact (Option.some.inj h).symm
  | 0, _ :: _, _, _, h => by simp [recurseInner] at h
  | k + 1, l :: ls, r, hm, h => by
    rw [recurseInner, if_neg (by rw [hm l (by simp)]; simp)] at h
    split at h
    · exact absurd h (by simp)
    · rename_i rs hr
      obtain rfl := Option.some.inj h
      rw [recurseInner_none (fun x hx => hm x (by simp [hx])) hr]

theorem step3_one {fuel L s : Nat} {c : Ctx} (hb : Verif.Props.OneCopy.HullBounded o c.opt) {first : Int} (hf : first < 0)
    {ls : List (Loop D S)} (h0 : ls ≠ []) {r : List (Loop D S)} {sep cst : Bool}
    (h : step3 o fuel c L s first (projectAll o ls L) = some (r, sep, cst)) :
    sep = false ∧ ∃ q, r = [q] ∧ q.inner = ls ∧ q.block = none := by
  have hB := flatMap_inner_projectAll (o := o) ls L
  unfold step3 at h
  cases e : projectAll o ls L with
  | nil =>
    unfold projectAll at e
    exact absurd (List.map_eq_nil_iff.1 e) h0
  | cons l rest =>
    rw [e] at hB h
    split at h
    · simp only [Option.some.injEq, Prod.mk.injEq] at h
      obtain ⟨rfl, rfl, _⟩ := h
      exact ⟨rfl, _, rfl, hB, rfl⟩
    · rw [if_pos (Or.inr hf)] at h
      obtain ⟨q, hm, hq⟩ := Option.map_eq_some_iff.1 h
      simp only [Prod.mk.injEq] at hq
      obtain ⟨rfl, rfl, _⟩ := hq
      refine ⟨rfl, ?_⟩
      have em : merge o fuel L c.opt (l :: rest) = if rest.isEmpty ∧ o.isConvex l.dom then some [l]
        else
          let temp := unionDom o l.dom rest
          let inner := (l :: rest).flatMap Loop.inner
          let nd := boundingDomain o c.opt temp
          if 0 < L ∧ o.isBounded nd L = false ∧ o.isBounded temp L = true then
            mergeSplit o c.opt temp inner fuel (o.boundSplitter temp L) []
          else some [.mk nd false none none inner] := rfl
      rw [em] at hm
      split at hm
      · rename_i hc
        obtain rfl := Option.some.inj hm
        have : rest = [] := List.isEmpty_iff.1 hc.1
        subst this
        refine ⟨l, rfl, by simpa using hB, ?_⟩
        have hl : l ∈ projectAll o ls L := by rw [e]; simp
        obtain ⟨b, _, rfl⟩ := List.mem_map.1 hl
        rfl
      · dsimp only at hm
        split at hm
        · rename_i hc
          exact absurd (hb _ _ hc.2.2) (by rw [hc.2.1]; simp)
        · obtain rfl := Option.some.inj hm
          exact ⟨_, rfl, hB, rfl⟩

/-- One level. -/
theorem general_one (G : GenLaws o mem) {c : Ctx} (hp : Plain c.opt) (hb : Verif.Props.OneCopy.HullBounded o c.opt)
    {n : Nat} (hn : c.scaldims.length ≤ n)
    {gen : List (Loop D S) → D → Nat → Nat → Option (List (Loop D S))} {fuel L : Nat} (hL : L ≤ n)
    (hg : ∀ ls d ctx r, ls ≠ [] → (∀ l ∈ ls, l.dom = d) → o.dim d = n → L + 1 ≤ n → gen ls ctx (L + 1) 0 = some r →
      Nest (n + 1 - (L + 1)) r (ls.map Loop.block))
    {ls T : List (Loop D S)} {d : D} (h0 : ls ≠ []) (hd : ∀ l ∈ ls, l.dom = d) (hdim : o.dim d = n)
    (h : generateGeneral o fuel c gen L 0 (projectAll o ls L) = some T) :
    Nest (n + 1 - L) T (ls.map Loop.block) := by
  unfold generateGeneral at h
  have hlev : levels c.opt (projectAll o ls L) = (c.opt.f, c.opt.l) := (Verif.Props.LoopOps.C28_levels c.opt _).2 hp.fs
  rw [hlev] at h
  dsimp only at h
  split at h
  · exact absurd h (by simp)
  · rename_i r3 sep cst h3
    obtain ⟨rfl, q, rfl, hqi, hqb⟩ := step3_one hb hp.f h0 h3
    have hqd : o.dim q.dom = L := by
      have hB : ∀ b ∈ ls, L ≤ o.dim b.dom := fun b hb => by rw [hd b hb]; omega
      have hP : Pieces o mem L ls [q] := by
        unfold step3 at h3
        split at h3
        · simp only [Option.some.injEq, Prod.mk.injEq] at h3
          rw [← h3.1]
          exact constant_pieces G hB
        · rw [if_pos (Or.inr hp.f)] at h3
          obtain ⟨q', hm, hq⟩ := Option.map_eq_some_iff.1 h3
          simp only [Prod.mk.injEq] at hq
          rw [← hq.1]
          exact merge_pieces G hB hm
      exact (hP.shape q (by simp)).1
    have h3b : step3b o c L 0 false [q] = some (restrictInner o [q]) := by
      unfold step3b Loop.sort
      by_cases hL0 : L = 0
      · rw [if_pos hL0]; rfl
      · rw [if_neg hL0]; rfl
    rw [h3b] at h
    dsimp only at h
    -- the inner loops
    have hri : restrictInner o [q] = [] ∨ ∃ m d', restrictInner o [q] = [m] ∧ m.block = none ∧ m.inner ≠ [] ∧
        (∀ i ∈ m.inner, i.dom = d') ∧ o.dim d' = n ∧ m.inner.map Loop.block = ls.map Loop.block := by
      unfold restrictInner
      simp only [List.filterMap_cons, List.filterMap_nil]
      by_cases he : (restrictAll o q.inner q.dom).isEmpty = true
      · left
        rw [if_pos he]
      · right
        rw [if_neg he]
        have hne : restrictAll o q.inner q.dom ≠ [] := fun h => he (List.isEmpty_iff.2 h)
        refine ⟨q.setInner (restrictAll o q.inner q.dom), ?_⟩
        rcases restrictAll_all (o := o) (ctx := q.dom) (ls := q.inner) (d := d) (by rw [hqi]; exact hd) with hE | ⟨d', h1, h2⟩
        · exact absurd hE hne
        · obtain ⟨i, hi⟩ := List.exists_mem_of_ne_nil _ hne
          have hdd : o.dim d' = n := by
            obtain ⟨a, ha, hai⟩ := List.mem_filterMap.1 hi
            rw [hqi] at ha
            have := (restrict_spec G (by rw [hqd, hd a ha]; omega) hai).2.2.2.1
            rw [← h1 i hi, this, hd a ha, hdim]
          refine ⟨d', rfl, ?_, ?_, ?_, hdd, ?_⟩
          · cases q; exact hqb
          · cases q; exact hne
          · cases q; exact h1
          · cases q; rw [← hqi]; exact h2
    have hf5 : ∀ r4 T', step5 o fuel c L 0 c.opt.f c.opt.l r4 = some T' →
        T' = if c.opt.strides then propagate o r4 else r4 := by
      intro r4 T' h5
      unfold step5 at h5
      dsimp only at h5
      rw [if_neg (by have := hp.f; omega)] at h5
      exact (Option.some.inj h5).symm
    have h4e : step4 o fuel c gen L 0 c.opt.l cst (restrictInner o [q]) = recurse o c gen cst L 0 (restrictInner o [q]) := by
      unfold step4
      rw [if_pos (Or.inr (Or.inr hp.l))]
    rw [h4e] at h
    split at h
    · exact absurd h (by simp)
    · rename_i r4 h4
      have hT := hf5 _ _ h
      rcases hri with hri | ⟨m, d', hri, hmb, hmi, hmd, hdd, hbl⟩
      · rw [hri] at h4
        unfold recurse at h4
        simp only [flatMapM, Option.some.injEq] at h4
        subst h4
        have : T = [] := by
          rw [hT]
          split <;> rfl
        rw [this]
        exact nest_nil _ _
      · rw [hri] at h4
        unfold recurse at h4
        simp only [flatMapM] at h4
        have hprep : ∃ m', recursePrepare o c cst L 0 m = some (.inl m') ∧ m'.inner = m.inner ∧ m'.block = none := by
          unfold recursePrepare
          dsimp only
          rw [if_neg (by have := hp.unroll; omega)]
          refine ⟨_, rfl, ?_, ?_⟩
          · cases m with
            | mk d ot st bl inner =>
              split
              · simp only [loopStride]
                split
                · rfl
                · split
                  · rfl
                  · split <;> rfl
              · rfl
          · cases m with
            | mk d ot st bl inner =>
              split
              · simp only [loopStride]
                split
                · exact hmb
                · split
                  · exact hmb
                  · split <;> exact hmb
              · exact hmb
        obtain ⟨m', hm', hmi', hmb'⟩ := hprep
        simp only [loopRecurse, hm', loopRecurseConst] at h4
        cases hbw : recurseBelow o c gen L 0 m' with
        | none => rw [hbw] at h4; simp at h4
        | some w =>
          rw [hbw] at h4
          simp only [Option.map_some, List.append_nil, Option.some.injEq] at h4
          subst h4
          have hw : w.block = none ∧ Nest (n + 1 - L - 1) w.inner (ls.map Loop.block) := by
            unfold recurseBelow at hbw
            dsimp only at hbw
            have e1 : (if 0 < L ∧ c.opt.otl = true then loopOtl o L m' else m').inner = m.inner := by
              rw [← hmi']
              cases m'
              split <;> rfl
            have e2 : (if 0 < L ∧ c.opt.otl = true then loopOtl o L m' else m').block = none := by
              rw [← hmb']
              cases m'
              split <;> rfl
            generalize (if 0 < L ∧ c.opt.otl = true then loopOtl o L m' else m') = m'' at hbw e1 e2
            split at hbw
            · exact absurd hbw (by simp)
            · rename_i into hinto
              obtain rfl := Option.some.inj hbw
              rw [e1] at hinto
              refine ⟨by cases m''; exact e2, ?_⟩
              have ei : (m''.setInner into).inner = into := by cases m''; rfl
              rw [ei]
              by_cases hLn : L + 1 ≤ n
              · have hmore : ∀ i ∈ m.inner, more o i (L + 1) 0 c.scaldims.length = true := by
                  intro i hi
                  simp only [more, Bool.or_eq_true, decide_eq_true_eq]
                  right
                  rw [hmd i hi]
                  omega
                have := hg _ d' _ _ hmi hmd hdd hLn (recurseInner_all hmore hmi hinto)
                rw [hbl] at this
                exact this
              · have hmore : ∀ i ∈ m.inner, more o i (L + 1) 0 c.scaldims.length = false := by
                  intro i hi
                  simp only [more, Bool.or_eq_false_iff, decide_eq_false_iff_not]
                  rw [hmd i hi]
                  omega
                rw [recurseInner_none hmore hinto]
                have : n + 1 - L - 1 = 0 := by omega
                rw [this]
                exact Or.inr hbl
          have hone : ∃ w', T = [w'] ∧ w'.block = none ∧ w'.inner = w.inner := by
            rw [hT]
            split
            · refine ⟨propagateOne o w, rfl, ?_, ?_⟩
              · cases w with
                | mk d ot st bl inner =>
                  cases inner with
                  | nil => exact hw.1
                  | cons i rest =>
                    cases rest with
                    | nil => simp only [propagateOne, Loop.inner_mk]; split <;> exact hw.1
                    | cons j rest => exact hw.1
              · cases w with
                | mk d ot st bl inner =>
                  cases inner with
                  | nil => rfl
                  | cons i rest =>
                    cases rest with
                    | nil => simp only [propagateOne, Loop.inner_mk]; split <;> rfl
                    | cons j rest => rfl
            · exact ⟨w, rfl, hw.1, rfl⟩
          obtain ⟨w', rfl, hwb, hwi⟩ := hone
          have e : n + 1 - L = (n + 1 - L - 1) + 1 := by omega
          rw [e]
          refine Or.inr ?_
          cases w' with
          | mk d ot st bl inner =>
            have hb' : bl = none := hwb
            subst hb'
            exact ⟨d, ot, st, inner, rfl, by rw [show inner = w.inner from hwi]; exact hw.2⟩

theorem restricted_one (G : GenLaws o mem) (heq : ∀ d, o.lazyEqual d d = true) {c : Ctx} (hp : Plain c.opt)
    (hb : Verif.Props.OneCopy.HullBounded o c.opt) {n : Nat} (hn : c.scaldims.length ≤ n) (hs : ∀ k ∈ c.scaldims, k = 0) :
    ∀ (fuel : Nat) (b : Bool) (L : Nat) (ls T : List (Loop D S)) (d ctx : D), L ≤ n → ls ≠ [] → (∀ l ∈ ls, l.dom = d) →
    o.dim d = n → generateRestricted o c fuel b ls ctx L 0 = some T → Nest (n + 1 - L) T (ls.map Loop.block)
  | 0, _, _, _, _, _, _, _, _, _, _, h => by simp [generateRestricted] at h
  | fuel + 1, b, L, ls, T, d, ctx, hL, h0, hd, hdim, h => by
    rw [generateRestricted, if_neg (by have := hp.stop; omega)] at h
    have hnc : levelIsConstant L 0 (isScal c.scaldims) = false := by
      rw [Bool.eq_false_iff]
      intro hc
      simp only [levelIsConstant, Bool.and_eq_true, decide_eq_true_eq] at hc
      have h3 := hc.2
      simp only [isScal, List.getD_eq_getElem?_getD, List.getElem?_map] at h3
      cases e : c.scaldims[L + 0 - 1]? with
      | none => rw [e] at h3; simp at h3
      | some v =>
        rw [e] at h3
        simp at h3
        exact h3 (hs v (List.mem_of_getElem? e))
    rw [if_neg (by rw [hnc]; simp)] at h
    have hg : ∀ ls d ctx r, ls ≠ [] → (∀ l ∈ ls, l.dom = d) → o.dim d = n → L + 1 ≤ n →
        generateRestricted o c fuel true ls ctx (L + 1) 0 = some r → Nest (n + 1 - (L + 1)) r (ls.map Loop.block) :=
      fun ls d ctx r h1 h2 h3 h4 h5 => restricted_one G heq hp hb hn hs fuel true (L + 1) ls r d ctx h4 h1 h2 h3 h5
    unfold generateComponents at h
    split at h
    · exact general_one G hp hb hn hL hg h0 hd hdim h
    · have hpd : ∀ l ∈ projectAll o ls L, l.dom = if o.dim d = L then d else o.project d L := by
        intro l hl
        obtain ⟨a, ha, rfl⟩ := List.mem_map.1 hl
        simp only [project, Loop.dom_mk, hd a ha]
      have hp0 : projectAll o ls L ≠ [] := fun h => h0 (List.map_eq_nil_iff.1 h)
      rw [components_all heq hp0 hpd] at h
      simp only [flatMapM] at h
      cases hgg : generateGeneral o fuel c (fun g d lev sc => generateRestricted o c fuel true g d lev sc) L 0
          (projectAll o ls L) with
      | none => rw [hgg] at h; simp at h
      | some r =>
        rw [hgg] at h
        simp only [List.append_nil, Option.some.injEq] at h
        have hr := general_one G hp hb hn hL hg h0 hd hdim hgg
        have : combine o r = r := by
          have e : n + 1 - L = (n + 1 - L - 1) + 1 := by omega
          rw [e] at hr
          rcases hr with rfl | ⟨_, _, _, _, rfl, _⟩ <;> rfl
        rw [← h, this]
        exact hr

/-- **C71.**  Without separation and scalar dimensions, if all statements have the same domain, they are generated in
    one nest of loops, in the order of the input. -/
theorem C71_one_nest (G : GenLaws o mem) (heq : ∀ d, o.lazyEqual d d = true) {c : Ctx} (hp : Plain c.opt)
    (hb : Verif.Props.OneCopy.HullBounded o c.opt) (hs : ∀ k ∈ c.scaldims, k = 0) {B T : List (Loop D S)} {d ctx : D}
    {fuel : Nat} (hd : ∀ l ∈ B, l.dom = d) (hn : c.scaldims.length ≤ o.dim d) (hc : o.dim ctx ≤ o.dim d)
    (h : generate o c fuel B ctx 0 0 = some T) : Nest (o.dim d + 1) T (B.map Loop.block) := by
  unfold generate at h
  split at h
  · obtain rfl := Option.some.inj h
    exact nest_nil _ _
  · rename_i he
    have hne : restrictAll o B ctx ≠ [] := fun h => he (List.isEmpty_iff.2 h)
    rcases restrictAll_all (o := o) (ctx := ctx) hd with hE | ⟨d', h1, h2⟩
    · exact absurd hE hne
    · obtain ⟨i, hi⟩ := List.exists_mem_of_ne_nil _ hne
      have hdd : o.dim d' = o.dim d := by
        obtain ⟨a, ha, hai⟩ := List.mem_filterMap.1 hi
        have := (restrict_spec G (by rw [hd a ha]; exact hc) hai).2.2.2.1
        rw [← h1 i hi, this, hd a ha]
      rw [← h2]
      exact restricted_one G heq hp hb hn hs fuel true 0 _ T d' ctx (by omega) hne h1 hdd h

/-! ## Example -/

section
open Verif.BoxDom Verif.Props.Generate

/-- Three statements with the same domain. -/
def exF : List (Loop BD (Int × Int)) :=
  [stmt 1 [] (box 2 [[1, 1], [2, 1], [2, 2]]), stmt 2 [] (box 2 [[1, 1], [2, 1], [2, 2]]),
    stmt 3 [] (box 2 [[1, 1], [2, 1], [2, 2]])]

/-- `-f -1`, `-strides` and a scattering of two dimensions. -/
def exFC : Ctx := ⟨{ f := -1, strides := true }, [0, 0]⟩

example : ∃ T, generate ops exFC 20 exF (box 0 [[]]) 0 0 = some T ∧ T ≠ [] ∧
    Nest 3 T [some ⟨[1], []⟩, some ⟨[2], []⟩, some ⟨[3], []⟩] := by
  have hT : ((generate ops exFC 20 exF (box 0 [[]]) 0 0).map (fun T => T.isEmpty)) = some false := by decide +kernel
  obtain ⟨T, hT, he⟩ := Option.map_eq_some_iff.1 hT
  refine ⟨T, hT, fun h => (by rw [h] at he; cases he), ?_⟩
  exact C71_one_nest BoxDom.laws (fun d => by simp [ops]) ⟨by decide, by decide, by decide, by decide, Or.inl rfl⟩
    (fun _ _ _ => rfl) (by decide) (d := box 2 [[1, 1], [2, 1], [2, 2]]) (by
      intro l hl
      simp only [exF, List.mem_cons, List.not_mem_nil, or_false] at hl
      rcases hl with rfl | rfl | rfl <;> rfl) (by decide) (by decide) hT

end
end Verif.Props.Fused
