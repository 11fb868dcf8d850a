import Verif.Lemmas.GenMain
import Verif.Props.Simplify

/-!
# The shape of generated loop trees

Every loop of a generated tree either scans its own level with a domain that is not a union, or is a
statement whose domain has one dimension less than its level.  This holds for all options except a last
level to optimise (`-l`), and is what `cloog_loop_simplify` needs to keep the order of execution.
-/

namespace Verif.Gen

open Verif.Loop Verif.Props.Separate Verif.ScalarSort Verif.Props.ScalarSort Verif.Props.Simplify

variable {D S C Par : Type} {o : DomOps D S C} {mem : D → Par × Pt → Prop} {ok : Nat → S → Par × Pt → Prop}

/-- What is assumed about the domain operations here, beyond `GenLaws`: intersecting sets that are not unions, fixing an iterator (`cloog_domain_fixed_offset`,
`source/isl/domain.c:2090-2108`) and tightening lower bounds for a stride
(`cloog_domain_stride_lower_bound`, `source/isl/domain.c:1096-1112`) do not make a union. -/
structure ConvLaws (o : DomOps D S C) : Prop where
  inter : ∀ a b, o.isConvex a = true → o.isConvex b = true → o.isConvex (o.inter a b) = true
  fixed : ∀ d L c k, o.isConvex d = true → o.isConvex (o.fixedOffset d L c k) = true
  lower : ∀ d L s, o.isConvex d = true → o.isConvex (o.strideLowerBound d L s) = true
  dim_lower : ∀ d L s, o.dim (o.strideLowerBound d L s) = o.dim d
  dim_addStride : ∀ d s, o.dim (o.addStride d s) = o.dim d

/-- A loop of a generated tree, at its level. -/
inductive Shaped (o : DomOps D S C) : Nat → Loop D S → Prop
  | node {L d ot st inner} : o.dim d = L → (0 < L → o.isConvex d = true) →
      (∀ i ∈ inner, Shaped o (L + 1) i) → Shaped o L (.mk d ot st none inner)
  | leaf {L d ot st b} : o.dim d + 1 = L → Shaped o L (.mk d ot st (some b) [])

/-- A shaped loop fits. -/
theorem shaped_fits {L : Nat} {l : Loop D S} (h : Shaped o L l) : fitsLoop o L (L - 1) l := by
  induction h with
  | node h1 h2 _ ih =>
    rw [fitsLoop_iff]
    simp only [Loop.dom_mk, Loop.inner_mk]
    refine ⟨by omega, by omega, fun h0 _ => h2 h0, ?_⟩
    rw [fits_iff, h1]
    exact ih
  | leaf h =>
    rw [fitsLoop_iff]
    simp only [Loop.dom_mk, Loop.inner_mk]
    exact ⟨by omega, by omega, by omega, trivial⟩

/-! ## Inner loops of the results of separation and merging -/

theorem addDisjoint_inner {P : Loop D S → Prop} (G : GenLaws o mem) {fuel : Nat} {l : Loop D S}
    {g : List (Loop D S)} (hl : ∀ i ∈ l.inner, P i) (h : addDisjoint o fuel l = some g) :
    ∀ m ∈ g, ∀ i ∈ m.inner, P i := by
  intro m hm i hi
  rw [((addDisjoint_spec G.toSetLaws fuel l g h).same m hm).1] at hi
  exact hl i hi

theorem combineFrom_inner {P : Loop D S → Prop} : ∀ (ls : List (Loop D S)) (a : Loop D S),
    (∀ i ∈ a.inner, P i) → (∀ l ∈ ls, ∀ i ∈ l.inner, P i) →
    ∀ m ∈ combineFrom o a ls, ∀ i ∈ m.inner, P i
  | [], a, ha, _, m, hm => by
    rw [combineFrom, List.mem_singleton] at hm
    rw [hm]; exact ha
  | b :: ls, a, ha, hls, m, hm => by
    rw [combineFrom] at hm
    have hb := hls b (by simp)
    split at hm
    · refine combineFrom_inner ls _ ?_ (fun l hl => hls l (by simp [hl])) m hm
      intro i hi
      rw [Loop.inner_setInner, List.mem_append] at hi
      exact hi.elim (ha i) (hb i)
    · rcases List.mem_cons.1 hm with rfl | hm
      · exact ha
      · exact combineFrom_inner ls b hb (fun l hl => hls l (by simp [hl])) m hm

theorem combine_inner {P : Loop D S → Prop} {ls : List (Loop D S)}
    (h : ∀ l ∈ ls, ∀ i ∈ l.inner, P i) : ∀ m ∈ combine o ls, ∀ i ∈ m.inner, P i := by
  cases ls with
  | nil => simp [combine]
  | cons a ls => exact combineFrom_inner ls a (h a (by simp)) (fun l hl => h l (by simp [hl]))

theorem sepPieces_inner {P : Loop D S → Prop} {res : List (Loop D S)} {uq : D} {l : Loop D S}
    (hres : ∀ q ∈ res, ∀ i ∈ q.inner, P i) (hl : ∀ i ∈ l.inner, P i) :
    ∀ m ∈ sepPieces o res uq l, ∀ i ∈ m.inner, P i := by
  intro m hm
  unfold sepPieces at hm
  rw [List.mem_append, List.mem_flatMap] at hm
  rcases hm with ⟨q, hq, hm⟩ | hm
  · rw [List.mem_append, Option.mem_toList, Option.mem_toList] at hm
    rcases hm with hm | hm
    · unfold sepInter at hm
      split at hm
      · exact absurd hm (by simp)
      · dsimp only at hm
        generalize (if o.lazyEqual q.dom l.dom = true then q.dom else o.inter q.dom l.dom) = d at hm
        split at hm
        · exact absurd hm (by simp)
        · rw [Option.some.injEq] at hm
          subst hm
          intro i hi
          rw [Loop.inner_mk, List.mem_append] at hi
          exact hi.elim (hres q hq i) (hl i)
    · unfold sepDiff at hm
      dsimp only at hm
      generalize (if (sepInter o q l).isNone then q.dom
        else if o.lazyEqual q.dom l.dom then o.empty q.dom else o.diff q.dom l.dom) = d at hm
      split at hm
      · exact absurd hm (by simp)
      · rw [Option.some.injEq] at hm
        subst hm
        exact hres q hq
  · rw [Option.mem_toList] at hm
    unfold sepRest at hm
    dsimp only at hm
    generalize (if o.lazyDisjoint l.dom uq then l.dom
        else if o.lazyEqual l.dom uq then o.empty uq else o.diff l.dom uq) = d at hm
    split at hm
    · exact absurd hm (by simp)
    · rw [Option.some.injEq] at hm
      subst hm
      exact hl

theorem sepLoop_inner {P : Loop D S → Prop} (G : GenLaws o mem) {fuel : Nat} :
    ∀ (ls res : List (Loop D S)) (uq : D) (out : List (Loop D S)),
      (∀ l ∈ ls, ∀ i ∈ l.inner, P i) → (∀ q ∈ res, ∀ i ∈ q.inner, P i) →
      sepLoop o fuel ls res uq = some out → ∀ m ∈ out, ∀ i ∈ m.inner, P i := by
  intro ls
  induction ls with
  | nil =>
    intro res uq out _ hres h
    rw [sepLoop] at h
    obtain rfl := Option.some.inj h
    exact hres
  | cons l ls ih =>
    intro res uq out hls hres h
    rw [sepLoop] at h
    split at h
    · exact absurd h (by simp)
    · rename_i res' hres'
      refine ih res' _ out (fun l hl => hls l (by simp [hl])) ?_ h
      intro m hm
      obtain ⟨a, ha, bs, hbs, hmb⟩ := flatMapM_mem hres' hm
      exact addDisjoint_inner G (sepPieces_inner hres (hls l (by simp)) a ha) hbs m hmb

theorem separate_inner {P : Loop D S → Prop} (G : GenLaws o mem) {fuel : Nat}
    {ls out : List (Loop D S)} (hls : ∀ l ∈ ls, ∀ i ∈ l.inner, P i)
    (h : separate o fuel ls = some out) : ∀ m ∈ out, ∀ i ∈ m.inner, P i := by
  have hc := combine_inner (o := o) hls
  unfold separate at h
  split at h
  · obtain rfl := Option.some.inj h
    simp
  · rename_i l he
    rw [he] at hc
    intro m hm
    obtain ⟨a, ha, bs, hbs, hmb⟩ := flatMapM_mem h hm
    exact addDisjoint_inner G (hc a ha) hbs m hmb
  · rename_i l ls' _ he
    rw [he] at hc
    refine sepLoop_inner G ls' _ _ out (fun l hl => hc l (by simp [hl])) ?_ h
    intro q hq
    rw [List.mem_singleton] at hq
    subst hq
    exact hc l (by simp)

/-! ## One level -/

/-- A loop between step 3 and the recursion: statements inside. -/
structure Mid (o : DomOps D S C) (L : Nat) (K : List (Option Block × Nat)) (r : Loop D S) : Prop where
  dim : o.dim r.dom = L
  block : r.block = none
  convex : 0 < L → o.isConvex r.dom = true
  inner : ∀ i ∈ r.inner, i.inner = [] ∧ L ≤ o.dim i.dom
  keys : (keys o r.inner).Sublist K

/-- The conditions on the statements handed to the generation at a level. -/
abbrev PreS (o : DomOps D S C) (scaldims : List Nat) (L s : Nat) (B : List (Loop D S)) : Prop :=
  Pre o scaldims (fun _ _ => True) L s B

theorem true_laws (flags : List Bool) :
    RelLaws flags (fun _ _ => True) (fun _ _ _ _ => True) where
  value := by simp
  next := by simp
  zero := by simp
  term := by simp
  scalLt := by simp
  scalEq := by simp

theorem recurseInner_shaped {scaldims : List Nat} {L s : Nat} (hp : Pos (isScal scaldims) L s)
    {gen : List (Loop D S) → Option (List (Loop D S))}
    (hgen : ∀ B T, PreS o scaldims L s B → gen B = some T → ∀ t ∈ T, Shaped o L t) :
    ∀ (n : Nat) (ls T : List (Loop D S)), (∀ l ∈ ls, l.inner = [] ∧ L ≤ o.dim l.dom + 1) →
      KOK (isScal scaldims) (fun _ _ => True) (keys o ls) →
      recurseInner o gen L s scaldims.length n ls = some T → ∀ t ∈ T, Shaped o L t := by
  intro n
  induction n with
  | zero =>
    intro ls T _ _ h
    match ls, h with
    | [], h =>
      simp only [recurseInner] at h
      obtain rfl := Option.some.inj h
      simp
  | succ n ih =>
    intro ls T hin hK h
    match ls, h with
    | [], h =>
      simp only [recurseInner] at h
      obtain rfl := Option.some.inj h
      simp
    | l :: ls, h =>
      rw [recurseInner] at h
      split at h
      · obtain ⟨sp1, sp2, _⟩ := span_more o L s scaldims.length (l :: ls)
        generalize (spanMore o L s scaldims.length (l :: ls)).1 = A at h sp1 sp2
        generalize (spanMore o L s scaldims.length (l :: ls)).2 = B at h sp1
        split at h
        · exact absurd h (by simp)
        · rename_i r hr
          split at h
          · exact absurd h (by simp)
          · rename_i rs hrs
            obtain rfl := Option.some.inj h
            rw [← sp1] at hK hin
            have hKA := hK.sublist (keys_sublist (List.sublist_append_left A B))
            have hKB := hK.sublist (keys_sublist (List.sublist_append_right A B))
            intro t ht
            rcases List.mem_append.1 ht with ht | ht
            · exact hgen A r ⟨fun b hb => (hin b (by simp [hb])).1, sp2,
                fun b hb => (hin b (by simp [hb])).2, hKA, hp⟩ hr t ht
            · exact ih B rs (fun b hb => hin b (by simp [hb])) hKB hrs t ht
      · rename_i hm
        split at h
        · exact absurd h (by simp)
        · rename_i rs hrs
          obtain rfl := Option.some.inj h
          have hKB := hK.sublist (keys_sublist (List.sublist_cons_self l ls))
          intro t ht
          rcases List.mem_cons.1 ht with rfl | ht
          · have hl := hin t (by simp)
            have hb := hK.block (t.block, o.dim t.dom) (by simp [keys])
            unfold more at hm
            simp only [Bool.or_eq_true, decide_eq_true_eq, not_or] at hm
            obtain ⟨d, ot, st, b, inner⟩ := t
            simp only [Loop.inner_mk, Loop.block_mk, Loop.dom_mk] at hl hb hm
            obtain ⟨rfl, hl⟩ := hl
            cases b with
            | none => exact absurd rfl hb
            | some b => exact .leaf (by omega)
          · exact ih ls rs (fun b hb => hin b (by simp [hb])) hKB hrs t ht

/-- A loop of the level, not a statement. -/
structure Node (o : DomOps D S C) (L : Nat) (t : Loop D S) : Prop where
  dim : o.dim t.dom = L
  block : t.block = none
  convex : 0 < L → o.isConvex t.dom = true
  inner : ∀ i ∈ t.inner, Shaped o (L + 1) i

theorem recurse_node (G : GenLaws o mem) (V : ConvLaws o) {c : Ctx} {L s : Nat}
    (hp : Pos (isScal c.scaldims) L s) (hc : levelIsConstant L s (isScal c.scaldims) = false)
    {gen : List (Loop D S) → D → Nat → Nat → Option (List (Loop D S))}
    (hgen : ∀ B d T, PreS o c.scaldims (L + 1) s B → o.dim d = L → gen B d (L + 1) s = some T →
      ∀ t ∈ T, Shaped o (L + 1) t)
    {K : List (Option Block × Nat)} (hK : KOK (isScal c.scaldims) (fun _ _ => True) K)
    {R T : List (Loop D S)} {cst : Bool} (hR : ∀ r ∈ R, Mid o L K r)
    (h : recurse o c gen cst L s R = some T) : ∀ t ∈ T, Node o L t := by
  have hone : ∀ (r : Loop D S) (g : List (Loop D S)), Mid o L K r →
      loopRecurseConst o c gen L s r = some g → ∀ t ∈ g, Node o L t := by
    intro r g hr h t ht
    unfold loopRecurseConst at h
    rw [Option.map_eq_some_iff] at h
    obtain ⟨u, hu, rfl⟩ := h
    rw [List.mem_singleton] at ht
    subst ht
    obtain ⟨d, ot, st, b, inner⟩ := r
    have hb := hr.block
    rw [Loop.block_mk] at hb
    subst hb
    have hot : ∃ ot', (if 0 < L ∧ c.opt.otl = true then loopOtl o L (.mk d ot st none inner)
        else Loop.mk d ot st none inner) = .mk d ot' st none inner := by
      split
      · exact ⟨_, rfl⟩
      · exact ⟨_, rfl⟩
    obtain ⟨ot', hot⟩ := hot
    unfold recurseBelow at hu
    rw [hot] at hu
    dsimp only [Loop.stride_mk, Loop.inner_mk, Loop.dom_mk] at hu
    have fin : ∀ dd into, o.dim dd = L → recurseInner o (fun ls => gen ls dd (L + 1) s) (L + 1) s
        c.scaldims.length inner.length inner = some into →
        Node o L (.mk d ot' st none into) := by
      intro dd into hd hin
      refine ⟨hr.dim, rfl, hr.convex, ?_⟩
      refine recurseInner_shaped (pos_next hp hc) (fun B' T' hB' hT' => hgen B' _ T' hB' hd hT') _ _ _
        (fun l hl => ⟨(hr.inner l hl).1, ?_⟩) (hK.sublist hr.keys) hin
      have := (hr.inner l hl).2
      omega
    cases st with
    | none =>
      split at hu
      · exact absurd hu (by simp)
      · rename_i into hin
        obtain rfl := Option.some.inj hu
        exact fin _ _ hr.dim hin
    | some st =>
      split at hu
      · exact absurd hu (by simp)
      · rename_i into hin
        obtain rfl := Option.some.inj hu
        exact fin _ _ ((V.dim_addStride d st).trans hr.dim) hin
  have hstride : ∀ r : Loop D S, Mid o L K r → Mid o L K (loopStride o L r) := by
    intro r hr
    obtain ⟨d, ot, st, b, inner⟩ := r
    have hslb : ∀ s st', Mid o L K (.mk (o.strideLowerBound d L s) ot st' b inner) := fun s _ =>
      ⟨(V.dim_lower d L s).trans hr.dim, hr.block, fun h0 => V.lower d L s (hr.convex h0), hr.inner,
        hr.keys⟩
    rw [loopStride]
    split
    · exact hr
    · split
      · exact hslb _ _
      · split
        · exact hr
        · exact hslb _ _
  have hunroll : ∀ r : Loop D S, Mid o L K r → ∀ m ∈ unrollOne o L r, Mid o L K m := by
    intro r hr m hm
    unfold unrollOne at hm
    split at hm
    · rw [List.mem_singleton.1 hm]
      exact hr
    · rename_i n lb _
      obtain ⟨i, _, hi⟩ := List.mem_filterMap.1 hm
      dsimp only at hi
      split at hi
      · exact absurd hi (by simp)
      · obtain rfl := Option.some.inj hi
        have hd : o.dim (o.fixedOffset r.dom L lb i) = L := (G.dim_fixedOffset _ _ _ _).trans hr.dim
        have hs := restrictAll_spec G (o.fixedOffset r.dom L lb i) r.inner
          (fun b hb => by rw [hd]; exact (hr.inner b hb).2)
        refine ⟨hd, rfl, fun h0 => V.fixed _ _ _ _ (hr.convex h0), ?_, hs.keys.trans hr.keys⟩
        intro j hj
        obtain ⟨b, hb, _, h2, h3, _⟩ := hs.sound j hj
        rw [← h2, ← h3]
        exact hr.inner b hb
  intro t ht
  unfold recurse at h
  obtain ⟨r, hr, bs, hbs, htb⟩ := flatMapM_mem h ht
  have hr := hR r hr
  unfold loopRecurse recursePrepare at hbs
  dsimp only at hbs
  have hr' : Mid o L K (if 0 < L ∧ c.opt.strides = true ∧ cst = false then loopStride o L r else r) := by
    split
    · exact hstride r hr
    · exact hr
  generalize (if 0 < L ∧ c.opt.strides = true ∧ cst = false then loopStride o L r else r) = r' at hbs hr'
  have hu := hunroll r' hr'
  split at hbs
  · exact absurd hbs (by simp)
  · rename_i m hm
    split at hm
    · generalize unrollOne o L r' = g at hm hu
      match g, hm with
      | [m'], hm =>
        simp only [unrolled, Option.some.injEq, Sum.inl.injEq] at hm
        subst hm
        exact hone _ _ (hu _ (by simp)) hbs t htb
    · simp only [Option.some.injEq, Sum.inl.injEq] at hm
      subst hm
      exact hone _ _ hr' hbs t htb
  · rename_i ms hm
    split at hm
    · generalize unrollOne o L r' = g at hm hu
      match g, hm with
      | a :: b :: ms', hm =>
        simp only [unrolled, Option.some.injEq, Sum.inr.injEq] at hm
        subst hm
        obtain ⟨m, hm, cs, hcs, htc⟩ := flatMapM_mem hbs htb
        exact hone _ _ (hu m hm) hcs t htc
    · exact absurd hm (by simp)

theorem Shaped.low {L : Nat} {l : Loop D S} (h : Shaped o L l) : L ≤ o.dim l.dom + 1 := by
  cases h with
  | node h => rw [Loop.dom_mk]; omega
  | leaf h => rw [Loop.dom_mk]; omega

theorem Node.shaped {L : Nat} {t : Loop D S} (h : Node o L t) : Shaped o L t := by
  obtain ⟨d, ot, st, b, inner⟩ := t
  have := h.block
  rw [Loop.block_mk] at this
  subst this
  exact .node h.dim h.convex h.inner

theorem propagate_node (G : GenLaws o mem) (V : ConvLaws o) {L : Nat} {t : Loop D S}
    (h : Node o L t) : Node o L (propagateOne o t) := by
  unfold propagateOne
  split
  · rename_i i hi
    split
    · rename_i hc
      have hin := h.inner i (by rw [hi]; simp)
      have hlow := hin.low
      have hpd : o.dim (o.project i.dom (o.dim t.dom)) = o.dim t.dom :=
        G.dim_project _ _ (by rw [h.dim]; omega)
      refine ⟨?_, h.block, fun h0 => V.inter _ _ hc.2 (h.convex h0), h.inner⟩
      rw [Loop.dom_setDom, G.dim_inter _ _ hpd, h.dim]
    · exact h
  · exact h

theorem backtrack_node (G : GenLaws o mem) {L fuel : Nat} {t : Loop D S} {g : List (Loop D S)}
    (ht : Node o L t) (h : backtrackLoop o fuel L t = some g) : ∀ q ∈ g, Node o L q := by
  unfold backtrackLoop at h
  split at h
  · obtain rfl := Option.some.inj h
    simp
  · split at h
    · exact absurd h (by simp)
    · rename_i sp hsp
      have hsh : ∀ i ∈ t.inner, Sh o L (backtrackOne o L t.dom i) ∧
          ∀ j ∈ (backtrackOne o L t.dom i).inner, Shaped o (L + 1) j := by
        intro i hi
        have hs := ht.inner i hi
        have hlow := hs.low
        unfold backtrackOne
        cases hb : i.block with
        | some b =>
          refine ⟨⟨ht.dim, rfl, rfl⟩, ?_⟩
          intro j hj
          rw [Loop.inner_mk, List.mem_singleton] at hj
          subst hj
          cases hs with
          | node _ _ _ => simp at hb
          | leaf h =>
            rw [Loop.block_mk] at hb
            obtain rfl := Option.some.inj hb
            exact .leaf h
        | none =>
          refine ⟨⟨(project_dom G (by omega)).1, rfl, rfl⟩, ?_⟩
          intro j hj
          simp only [Loop.project, Loop.inner_mk, List.mem_singleton] at hj
          rw [hj]
          exact hs
      have h1 : ∀ q ∈ sp, Sh o L q := separate_shape G (by
        intro l hl
        obtain ⟨i, hi, rfl⟩ := List.mem_map.1 hl
        exact (hsh i hi).1) hsp
      have h2 : ∀ q ∈ sp, ∀ j ∈ q.inner, Shaped o (L + 1) j := separate_inner G (by
        intro l hl
        obtain ⟨i, hi, rfl⟩ := List.mem_map.1 hl
        exact (hsh i hi).2) hsp
      have h3 := (C17_separate G.toSetLaws _ _ _ hsp).1
      intro q hq
      have hq := sort_mem h q hq
      exact ⟨(h1 q hq).1, (h1 q hq).2.1, fun _ => h3 q hq, h2 q hq⟩

theorem combineFrom_node {L : Nat} : ∀ (ls : List (Loop D S)) (a : Loop D S), Node o L a →
    (∀ l ∈ ls, Node o L l) → ∀ m ∈ combineFrom o a ls, Node o L m
  | [], a, ha, _, m, hm => by
    rw [combineFrom, List.mem_singleton] at hm
    rw [hm]; exact ha
  | b :: ls, a, ha, hls, m, hm => by
    rw [combineFrom] at hm
    have hb := hls b (by simp)
    split at hm
    · refine combineFrom_node ls (a.setInner (a.inner ++ b.inner)) ⟨ha.dim, ha.block, ha.convex, ?_⟩
        (fun l hl => hls l (by simp [hl])) m hm
      intro i hi
      rw [Loop.inner_setInner, List.mem_append] at hi
      exact hi.elim (ha.inner i) (hb.inner i)
    · rcases List.mem_cons.1 hm with rfl | hm
      · exact ha
      · exact combineFrom_node ls b hb (fun l hl => hls l (by simp [hl])) m hm

/-- No level is only nested: the level to stop optimisation is negative. -/
theorem noLast_levels {opt : Options} (h : NoLast opt) (ls : List (Loop D S)) :
    (levels opt ls).2 < 0 := by
  unfold levels
  rw [loopsGetFl_none h.2 ls]
  exact h.1

/-- The options for which the shape is proved: `-f` and `-first-unroll` are not zero, no `-l`; strides,
unrolling, backtracking and `-stop` are allowed. -/
structure OptS (opt : Options) : Prop where
  first : opt.f ≠ 0
  last : NoLast opt

theorem levels_first {opt : Options} (h : OptS opt) (ls : List (Loop D S)) : (levels opt ls).1 ≠ 0 := by
  unfold levels
  rw [loopsGetFl_none h.last.2 ls]
  exact h.first

theorem generateGeneral_node (G : GenLaws o mem) (V : ConvLaws o) {c : Ctx} (W : WFScal c.scaldims)
    (hopt : OptS c.opt) {L s : Nat}
    (hp : Pos (isScal c.scaldims) L s) (hc : levelIsConstant L s (isScal c.scaldims) = false)
    {gen : List (Loop D S) → D → Nat → Nat → Option (List (Loop D S))}
    (hgen : ∀ B d T, PreS o c.scaldims (L + 1) s B → o.dim d = L → gen B d (L + 1) s = some T →
      ∀ t ∈ T, Shaped o (L + 1) t)
    {fuel : Nat} {B T : List (Loop D S)} (hB : Pre o c.scaldims (fun _ _ => True) L s B)
    (h : generateGeneral o fuel c gen L s (projectAll o B L) = some T) : ∀ t ∈ T, Node o L t := by
  have h0s : L = 0 → s = 0 := by
    rintro rfl
    rcases hp with ⟨_, h⟩ | ⟨h, _⟩
    · exact h
    · omega
  have hdim : ∀ b ∈ B, L ≤ o.dim b.dom := fun b hb =>
    more_dim hp hc (hB.keys.dims (b.block, o.dim b.dom) (List.mem_map_of_mem hb)) (hB.more b hb)
  unfold generateGeneral at h
  have l1 := levels_first hopt (projectAll o B L)
  have l2 := noLast_levels hopt.last (projectAll o B L)
  dsimp only at h
  generalize levels c.opt (projectAll o B L) = fl at h l1 l2
  split at h
  · exact absurd h (by simp)
  · rename_i r3 sep cst hr3
    have hQ := step3_pieces G hdim hr3
    have hQc := step3_convex G hr3
    have hsep : sep = true → 0 < L := by
      intro hse
      unfold step3 at hr3
      split at hr3
      · simp only [Option.some.injEq, Prod.mk.injEq] at hr3
        rw [← hr3.2.1] at hse
        exact absurd hse (by simp)
      · split at hr3
        · rw [Option.map_eq_some_iff] at hr3
          obtain ⟨r, _, hr⟩ := hr3
          simp only [Prod.mk.injEq] at hr
          rw [← hr.2.1] at hse
          exact absurd hse (by simp)
        · rename_i hf
          rcases Nat.eq_zero_or_pos L with hz | hz
          · have := h0s hz
            omega
          · exact hz
    split at h
    · exact absurd h (by simp)
    · rename_i r3b hr3b
      have hS := step3b_stage (ok := fun _ _ _ => True) (Rel := fun _ _ _ _ => True) G W (true_laws _) hp hc hsep hB.keys
        (fun b hb => ⟨hB.inner b hb, hdim b hb⟩) hQ hr3b
      have hSc := step3b_convex hQc hr3b
      split at h
      · exact absurd h (by simp)
      · rename_i r4 hr4
        unfold step4 at hr4
        rw [if_pos (by omega)] at hr4
        have hT := recurse_node G V hp hc hgen hB.keys (fun r hr => ⟨(hS.shape r hr).1,
          (hS.shape r hr).2, fun _ => hSc r hr, hS.base r hr, hS.keys r hr⟩) hr4
        unfold step5 at h
        dsimp only at h
        have hT' : ∀ t ∈ (if c.opt.strides = true then propagate o r4 else r4), Node o L t := by
          intro t ht
          split at ht
          · unfold propagate at ht
            obtain ⟨u, hu, rfl⟩ := List.mem_map.1 ht
            exact propagate_node G V (hT u hu)
          · exact hT t ht
        generalize (if c.opt.strides = true then propagate o r4 else r4) = r5 at h hT'
        split at h
        · intro t ht
          unfold backtrack at h
          obtain ⟨u, hu, g, hg, htg⟩ := flatMapM_mem h ht
          exact backtrack_node G (hT' u hu) hg t htg
        · obtain rfl := Option.some.inj h
          exact hT'

theorem generateComponents_node (G : GenLaws o mem) (V : ConvLaws o) {c : Ctx} (W : WFScal c.scaldims)
    (hopt : OptS c.opt) {L s : Nat}
    (hp : Pos (isScal c.scaldims) L s) (hc : levelIsConstant L s (isScal c.scaldims) = false)
    {gen : List (Loop D S) → D → Nat → Nat → Option (List (Loop D S))}
    (hgen : ∀ B d T, PreS o c.scaldims (L + 1) s B → o.dim d = L → gen B d (L + 1) s = some T →
      ∀ t ∈ T, Shaped o (L + 1) t)
    {fuel : Nat} {B T : List (Loop D S)} (hB : Pre o c.scaldims (fun _ _ => True) L s B)
    (h : generateComponents o fuel c gen L s (projectAll o B L) = some T) : ∀ t ∈ T, Node o L t := by
  unfold generateComponents at h
  split at h
  · exact generateGeneral_node G V W hopt hp hc hgen hB h
  · have hpa : projectAll o B L = B.map (Loop.project o L) := rfl
    rw [hpa, componentsOf_map (α := Unit)] at h
    split at h
    · exact absurd h (by simp)
    · rename_i cs' hcs
      rw [Option.map_eq_some_iff] at hcs
      obtain ⟨cs, hcs, rfl⟩ := hcs
      split at h
      · exact absurd h (by simp)
      · rename_i r hr
        obtain rfl := Option.some.inj h
        have c1 := (componentsOf_spec (α := Unit) hcs).1
        have hall : ∀ t ∈ r, Node o L t := by
          intro t ht
          obtain ⟨k', hk', g, hg, htg⟩ := flatMapM_mem hr ht
          obtain ⟨k, hk, rfl⟩ := List.mem_map.1 hk'
          have hkB := c1 k hk
          exact generateGeneral_node G V W hopt hp hc hgen
            ⟨fun b hb => hB.inner b (hkB.subset hb), fun b hb => hB.more b (hkB.subset hb),
              fun b hb => hB.low b (hkB.subset hb),
              hB.keys.sublist (keys_sublist hkB), hp⟩ hg t htg
        cases r with
        | nil => simp [combine]
        | cons a ls =>
          exact combineFrom_node ls a (hall a (by simp)) (fun l hl => hall l (by simp [hl]))

theorem generateScalar_shaped (G : GenLaws o mem) {c : Ctx} (W : WFScal c.scaldims) {L s : Nat}
    (hp : Pos (isScal c.scaldims) L s) (hc : levelIsConstant L s (isScal c.scaldims) = true)
    {gen : List (Loop D S) → Nat → Option (List (Loop D S))}
    (hgen : ∀ B s' T, PreS o c.scaldims L s' B → gen B s' = some T → ∀ t ∈ T, Shaped o L t)
    {B T : List (Loop D S)} (hB : PreS o c.scaldims L s B)
    (h : generateScalar o c gen L s B = some T) : ∀ t ∈ T, Shaped o L t := by
  classical
  have hlen : (isScal c.scaldims).length = c.scaldims.length := by simp [isScal]
  obtain ⟨hk, hrun⟩ := isRun_of_const W hc
  have h0 : 0 < L := hrun.1
  unfold generateScalar at h
  dsimp only at h
  generalize runLength c.scaldims (L + s - 1) = k at h hk hrun
  obtain ⟨srt, s1, s2, s3, s4⟩ := C20_scalar_sort (scalOf (D := D) (S := S)) o.icmp G.icmp L
    (isScal c.scaldims) s k hrun B
  rw [s1 _ (Nat.lt_succ_self _)] at h
  dsimp only at h
  have hposn : Pos (isScal c.scaldims) L (s + k) := pos_scal h0 hp hrun.2.1
  -- comparison of two scalar vectors
  have hse : ∀ a b : Loop D S, scalarEq o.icmp L (isScal c.scaldims) s (scalOf a) (scalOf b) = true ↔
      LexEq s k (scalOf a) (scalOf b) := by
    intro a b
    unfold scalarEq
    rw [beq_iff_eq]
    exact (constantCmp_spec o.icmp G.icmp L (isScal c.scaldims) (scalOf a) (scalOf b) k s hrun).2
  have eqsymm : ∀ {a b : Nat → Int}, LexEq s k a b → LexEq s k b a := fun h j hj => (h j hj).symm
  have eqtrans : ∀ {a b d : Nat → Int}, LexEq s k a b → LexEq s k b d → LexEq s k a d :=
    fun h h' j hj => (h j hj).trans (h' j hj)
  -- pairs of the sorted list
  have hcls : ∀ (l : Loop D S) (ms : List (Loop D S)), ms.Sublist srt →
      (∀ m ∈ ms, LexEq s k (scalOf l) (scalOf m)) → ms.Sublist B := by
    intro l ms hms hm
    have hf := s4 (fun m => decide (LexEq s k (scalOf l) (scalOf m))) (by
      intro x y hx hy
      simp only [decide_eq_true_eq] at hx hy
      exact eqtrans (eqsymm hx) hy)
    have h1 : (ms.filter (fun m => decide (LexEq s k (scalOf l) (scalOf m)))) = ms := by
      rw [List.filter_eq_self]
      intro m hmm
      simpa using hm m hmm
    rw [← h1]
    refine (hms.filter _).trans ?_
    rw [hf]
    exact List.filter_sublist
  have hlast : (isScal c.scaldims).length < L + (s + k) → ∀ a b, [a, b].Sublist B →
      o.dim b.dom ≤ o.dim a.dom := by
    intro hl a b hab
    have hla : (isScal c.scaldims).getLast? = some true := by
      have := hrun.2.1 (k - 1) (by omega)
      have hlt := (List.getElem?_eq_some_iff.1 this).1
      rw [List.getLast?_eq_getElem?, show (isScal c.scaldims).length - 1 = L + s + (k - 1) - 1 by
        omega]
      exact this
    have := hB.keys.last hla
    unfold keys at this
    rw [List.pairwise_map] at this
    have := this.sublist hab
    simp only [List.pairwise_cons, List.mem_singleton, forall_eq] at this
    exact this.1
  have hnm : ∀ l : Loop D S, more o l L (s + k) c.scaldims.length = false →
      (isScal c.scaldims).length < L + (s + k) ∧ o.dim l.dom < L := by
    intro l h
    unfold more at h
    simp only [Bool.or_eq_false_iff, decide_eq_false_iff_not] at h
    omega
  have key : ∀ (n : Nat) (ls T : List (Loop D S)), ls.Sublist srt →
      scalarLoop o c (fun g => gen g (s + k)) L s (s + k) n ls = some T → ∀ t ∈ T, Shaped o L t := by
    intro n
    induction n with
    | zero =>
      intro ls T _ h
      match ls, h with
      | [], h =>
        simp only [scalarLoop] at h
        obtain rfl := Option.some.inj h
        simp
    | succ n ih =>
      intro ls T hsub h
      match ls, h with
      | [], h =>
        simp only [scalarLoop] at h
        obtain rfl := Option.some.inj h
        simp
      | l :: ls, h =>
        rw [scalarLoop] at h
        obtain ⟨g1, g2, g3⟩ := span_group o c L s (s + k) l ls
        generalize (scalarGroup o c L s (s + k) l ls).1 = A at h g1 g2
        generalize (scalarGroup o c L s (s + k) l ls).2 = R at h g1 g3
        have hsubR : R.Sublist srt := by
          rw [← g1] at hsub
          exact (List.sublist_append_right A R).trans ((List.sublist_cons_self l _).trans hsub)
        by_cases hm : more o l L (s + k) c.scaldims.length = true
        · rw [if_pos hm] at h
          split at h
          · exact absurd h (by simp)
          · rename_i r hr
            split at h
            · exact absurd h (by simp)
            · rename_i rs hrs
              obtain rfl := Option.some.inj h
              have hiR := ih R rs hsubR hrs
              have hgl : ∀ m ∈ l :: A, LexEq s k (scalOf l) (scalOf m) := by
                intro m hmm
                rcases List.mem_cons.1 hmm with rfl | hmm
                · exact fun j _ => rfl
                · exact (hse l m).1 (g2 m hmm).2
              have hgs : (l :: A).Sublist srt := by
                rw [← g1] at hsub
                exact ((List.sublist_append_left A R).cons_cons l).trans hsub
              have hgB := hcls l (l :: A) hgs hgl
              have hpre : Pre o c.scaldims (fun _ _ => True) L (s + k) (l :: A) := by
                refine ⟨fun b hb => hB.inner b (hgB.subset hb), ?_, fun b hb => hB.low b (hgB.subset hb),
                  hB.keys.sublist (keys_sublist hgB), hposn⟩
                intro b hb
                rcases List.mem_cons.1 hb with rfl | hb
                · exact hm
                · exact (g2 b hb).1
              have hS := hgen _ _ _ hpre hr
              intro t ht
              rcases List.mem_append.1 ht with ht | ht
              · exact hS t ht
              · exact hiR t ht
        · rw [if_neg hm] at h
          have hm' : more o l L (s + k) c.scaldims.length = false := by simpa using hm
          obtain ⟨n1, n2⟩ := hnm l hm'
          have hA : A = [] := by
            by_contra hne
            obtain ⟨m, A', rfl⟩ := List.exists_cons_of_ne_nil hne
            obtain ⟨m1, m2⟩ := g2 m (by simp)
            have hlm : [l, m].Sublist srt := by
              rw [← g1] at hsub
              refine List.Sublist.trans ?_ hsub
              simp
            have hB' := hcls l [l, m] hlm (by
              intro q hq
              simp only [List.mem_cons, List.not_mem_nil, or_false] at hq
              rcases hq with rfl | rfl
              · exact fun j _ => rfl
              · exact (hse l q).1 m2)
            have := hlast n1 l m hB'
            unfold more at m1
            simp only [Bool.or_eq_true, decide_eq_true_eq] at m1
            omega
          subst hA
          rw [List.nil_append] at g1
          subst g1
          split at h
          · exact absurd h (by simp)
          all_goals
            rename_i hrs
            obtain rfl := Option.some.inj h
            have hiR := ih _ _ hsubR hrs
            have hlB : l ∈ B := s2.subset (hsub.subset (by simp))
            intro t ht
            rcases List.mem_cons.1 ht with rfl | ht
            · have h1 := hB.keys.block (t.block, o.dim t.dom) (List.mem_map_of_mem hlB)
              have h2 := hB.inner t hlB
              have h3 := hB.low t hlB
              obtain ⟨d, ot, st, b, inner⟩ := t
              simp only [Loop.inner_mk, Loop.block_mk, Loop.dom_mk] at h1 h2 h3 n2
              subst h2
              cases b with
              | none => exact absurd rfl h1
              | some b => exact .leaf (by omega)
            · exact hiR t (by simpa using ht)
  exact key _ srt T (List.Sublist.refl _) h

theorem generateRestricted_shaped (G : GenLaws o mem) (V : ConvLaws o) {c : Ctx}
    (W : WFScal c.scaldims) (hopt : OptS c.opt) :
    ∀ (fuel : Nat) (orStop : Bool) (B : List (Loop D S)) (d : D) (L s : Nat) (T : List (Loop D S)),
      PreS o c.scaldims L s B → (orStop = true → 0 < L → o.dim d + 1 = L) →
      generateRestricted o c fuel orStop B d L s = some T → ∀ t ∈ T, Shaped o L t := by
  intro fuel
  induction fuel with
  | zero => intro _ B d L s T _ _ h; simp [generateRestricted] at h
  | succ fuel ih =>
    intro orStop B d L s T hB hd h
    rw [generateRestricted] at h
    split at h
    · rename_i hs
      obtain rfl := Option.some.inj h
      have h0 : 0 < L := by
        rcases hB.pos with ⟨h1, h2⟩ | ⟨h, _⟩
        · omega
        · exact h
      intro t ht
      unfold stop at ht
      obtain ⟨b, hb, rfl⟩ := List.mem_map.1 ht
      have h1 := hB.keys.block (b.block, o.dim b.dom) (List.mem_map_of_mem hb)
      have h2 := hB.inner b hb
      have h3 := hd hs.1 h0
      obtain ⟨d', ot, st, bl, inner⟩ := b
      simp only [Loop.inner_mk, Loop.block_mk, Loop.dom_mk] at h1 h2
      subst h2
      cases bl with
      | none => exact absurd rfl h1
      | some bl => exact .leaf h3
    · split at h
      · rename_i hc
        exact generateScalar_shaped G W hB.pos hc
          (fun B' s' T' hB' h' => ih false B' d L s' T' hB' (by simp) h') hB h
      · rename_i hc
        have hc : levelIsConstant L s (isScal c.scaldims) = false := by simpa using hc
        intro t ht
        exact (generateComponents_node G V W hopt hB.pos hc
          (fun B' d' T' hB' hd' h' => ih true B' d' (L + 1) s T' hB' (fun _ _ => by rw [hd']) h')
          hB h t ht).shaped

/-- The trees made by `cloog_loop_generate` at level 0 have one loop per level down to the
statements. -/
theorem generate_shaped (G : GenLaws o mem) (V : ConvLaws o) {c : Ctx} (W : WFScal c.scaldims)
    (hopt : OptS c.opt) {fuel : Nat} {B T : List (Loop D S)} {ctx : D} (hctx : o.dim ctx = 0)
    (hin : ∀ b ∈ B, b.inner = []) (hK : KOK (isScal c.scaldims) (fun _ _ => True) (keys o B))
    (h : generate o c fuel B ctx 0 0 = some T) : ∀ t ∈ T, Shaped o 0 t := by
  have hR := restrictAll_spec G ctx B (fun b _ => by omega)
  unfold generate at h
  split at h
  · obtain rfl := Option.some.inj h
    simp
  · exact generateRestricted_shaped G V W hopt fuel true _ ctx 0 0 T
      ⟨fun r hr => by
          obtain ⟨b, hb, _, _, h3, _⟩ := hR.sound r hr
          rw [← h3]; exact hin b hb,
        fun r _ => by simp [more], fun _ _ => by omega, hK.sublist hR.keys, Or.inl ⟨rfl, rfl⟩⟩
      (fun _ h => absurd h (by omega)) h

end Verif.Gen
