import Verif.Lemmas.GenNest
import Verif.Lemmas.GenConv

/-! # The generation as a whole -/

namespace Verif.Gen

open Verif.Loop Verif.Props.Separate Verif.ScalarSort Verif.Props.ScalarSort

variable {D S C Par : Type} {o : DomOps D S C} {mem : D → Par × Pt → Prop} {ok : Nat → S → Par × Pt → Prop}

/-! ## Backtracking -/

/-- The inner loop as rebuilt by `backtrackOne`. -/
def star (i : Loop D S) : Loop D S :=
  match i.block with
  | some b => .mk i.dom false none (some b) []
  | none => i

theorem star_has {p : Par} {L : Nat} {i : Loop D S} (h : Top o L i) (y : Pt) (e : Inst) :
    hasLoop (sem o mem ok p) L y (star i) e ↔ hasLoop (sem o mem ok p) L y i e := by
  obtain ⟨d, ot, st, b, inner⟩ := i
  cases b with
  | none => rfl
  | some b =>
    rcases h with h | ⟨_, h1, h2⟩
    · have := h.2
      simp at this
    · simp only [Loop.inner_mk, Loop.dom_mk] at h1 h2
      subst h1
      have hd : ¬ (0 < L ∧ L ≤ (sem o mem ok p).dim d) := by simp only [sem]; omega
      simp only [star, Loop.block_mk, Loop.dom_mk, hasLoop_mk, Visits, if_neg hd]

theorem star_seq {p : Par} {L : Nat} {i : Loop D S} (h : Top o L i) (y : Pt) (e f : Inst) :
    seqLoop (sem o mem ok p) L y (star i) e f ↔ seqLoop (sem o mem ok p) L y i e f := by
  obtain ⟨d, ot, st, b, inner⟩ := i
  cases b with
  | none => rfl
  | some b =>
    rcases h with h | ⟨_, h1, h2⟩
    · have := h.2
      simp at this
    · simp only [Loop.inner_mk, Loop.dom_mk] at h1 h2
      subst h1
      have hd : ¬ (0 < L ∧ L ≤ (sem o mem ok p).dim d) := by simp only [sem]; omega
      simp only [star, Loop.block_mk, Loop.dom_mk, seqLoop, Visits, if_neg hd]

theorem star_hasL {p : Par} {L : Nat} {ls : List (Loop D S)} (h : ∀ i ∈ ls, Top o L i) (y : Pt)
    (e : Inst) : hasLoops (sem o mem ok p) L y (ls.map star) e ↔
      hasLoops (sem o mem ok p) L y ls e := by
  induction ls with
  | nil => rfl
  | cons l ls ih =>
    rw [List.map_cons, hasLoops, hasLoops, star_has (h l (by simp)),
      ih (fun i hi => h i (by simp [hi]))]

theorem star_seqL {p : Par} {L : Nat} {ls : List (Loop D S)} (h : ∀ i ∈ ls, Top o L i) (y : Pt)
    (e f : Inst) : seqLoops (sem o mem ok p) L y (ls.map star) e f ↔
      seqLoops (sem o mem ok p) L y ls e f := by
  induction ls with
  | nil => rfl
  | cons l ls ih =>
    have hl := fun i hi => h i (List.mem_cons_of_mem l hi)
    rw [List.map_cons, seqLoops, seqLoops, star_seq (h l (by simp)), star_has (h l (by simp)),
      star_hasL hl, ih hl]

open Classical in
theorem flow_backtrack (L : Nat) (d : D) (px : Par × Pt) : ∀ ls : List (Loop D S),
    flow mem (ls.map (backtrackOne o L d)) px =
      (ls.filter (fun i => decide (mem (backtrackOne o L d i).dom px))).map star
  | [] => rfl
  | i :: ls => by
    have ih := flow_backtrack L d px ls
    have hi : (backtrackOne o L d i).inner = [star i] := by
      unfold backtrackOne star
      cases i.block <;> rfl
    unfold flow at ih ⊢
    rw [List.map_cons, List.flatMap_cons, ih, List.filter_cons]
    by_cases h : mem (backtrackOne o L d i).dom px
    · rw [if_pos h, hi, if_pos (decide_eq_true h)]; rfl
    · rw [if_neg h, if_neg (by simpa using h)]; rfl

theorem value_of_has {scaldims : List Nat} {ord : Block → Block → Prop}
    {Rel : Nat → Nat → Inst → Inst → Prop} (RL : RelLaws (isScal scaldims) ord Rel) {L s : Nat}
    (h0 : 0 < L) (hc : levelIsConstant L s (isScal scaldims) = false) {p : Par}
    {a b : List (Loop D S)} {y z : Pt} {e f : Inst}
    (he : hasLoops (sem o mem ok p) (L + 1) y a e) (hf : hasLoops (sem o mem ok p) (L + 1) z b f)
    (le : L ≤ e.args.length) (lf : L ≤ f.args.length) (h : y (L - 1) < z (L - 1)) : Rel L s e f := by
  refine RL.value L s e f h0 hc le lf ?_
  rw [hasLoops_args _ _ _ _ he (L - 1) (by omega) (by omega),
    hasLoops_args _ _ _ _ hf (L - 1) (by omega) (by omega)]
  exact h

/-- Loops of the level whose instances have its iterator, at values that the stride admits. -/
def Level (o : DomOps D S C) (mem : D → Par × Pt → Prop) (ok : Nat → S → Par × Pt → Prop) (L : Nat)
    (t : Loop D S) : Prop :=
  Nd o L t ∧ ∀ p y e, mem t.dom (p, y) → hasLoops (sem o mem ok p) (L + 1) y t.inner e →
    Adm ok L t.stride (p, y) ∧ L ≤ e.args.length

theorem Tree.level {Rel : Nat → Nat → Inst → Inst → Prop} {L s : Nat} {t : Loop D S}
    (h : Tree o mem ok Rel L s t) : Level o mem ok L t :=
  ⟨h.shape, fun p y e _ he => (h.into p y e he).2⟩

/-- The stride of such a loop excludes nothing that would be executed. -/
theorem hasLoop_level {L : Nat} {x : Pt} {p : Par} {t : Loop D S} {e : Inst}
    (h : Level o mem ok L t) :
    hasLoop (sem o mem ok p) L x t e ↔ ∃ y, ((0 < L ∧ ∃ v, y = setAt x L v) ∨ (L = 0 ∧ y = x)) ∧
      mem t.dom (p, y) ∧ hasLoops (sem o mem ok p) (L + 1) y t.inner e := by
  rw [hasLoop_nd h.1]
  constructor
  · rintro ⟨y, hy, hm, _, he⟩
    exact ⟨y, hy, hm, he⟩
  · rintro ⟨y, hy, hm, he⟩
    exact ⟨y, hy, hm, fun _ s hs => (h.2 p y e hm he).1 s hs y (Agree.refl _ _), he⟩

theorem seqLoop_level {L : Nat} {x : Pt} {p : Par} {t : Loop D S} {e f : Inst}
    (h : Level o mem ok L t) :
    seqLoop (sem o mem ok p) L x t e f ↔
      (∃ y, ((0 < L ∧ ∃ v, y = setAt x L v) ∨ (L = 0 ∧ y = x)) ∧ mem t.dom (p, y) ∧
        seqLoops (sem o mem ok p) (L + 1) y t.inner e f) ∨
      (0 < L ∧ ∃ v w, v < w ∧ mem t.dom (p, setAt x L v) ∧ mem t.dom (p, setAt x L w) ∧
        hasLoops (sem o mem ok p) (L + 1) (setAt x L v) t.inner e ∧
        hasLoops (sem o mem ok p) (L + 1) (setAt x L w) t.inner f) := by
  rw [seqLoop_nd h.1]
  have key : ∀ y e, mem t.dom (p, y) → hasLoops (sem o mem ok p) (L + 1) y t.inner e →
      ∀ s, t.stride = some s → ok L s (p, y) :=
    fun y e hm he s hs => (h.2 p y e hm he).1 s hs y (Agree.refl _ _)
  constructor
  · rintro (⟨y, hy, hm, _, hs⟩ | ⟨h0, v, w, hvw, hm, hm', _, he, hf⟩)
    · exact Or.inl ⟨y, hy, hm, hs⟩
    · exact Or.inr ⟨h0, v, w, hvw, hm, hm', he, hf⟩
  · rintro (⟨y, hy, hm, hs⟩ | ⟨h0, v, w, hvw, hm, hm', he, hf⟩)
    · exact Or.inl ⟨y, hy, hm, fun _ => key y e hm (seqLoops_has _ _ _ _ _ hs).1, hs⟩
    · exact Or.inr ⟨h0, v, w, hvw, hm, hm',
        fun s hs => ⟨key _ e hm he s hs, key _ f hm' hf s hs⟩, he, hf⟩

theorem backtrack_one (G : GenLaws o mem) {scaldims : List Nat} {ord : Block → Block → Prop}
    {Rel : Nat → Nat → Inst → Inst → Prop} (RL : RelLaws (isScal scaldims) ord Rel) {L s : Nat}
    (h0 : 0 < L) (hc : levelIsConstant L s (isScal scaldims) = false) {fuel : Nat}
    {t : Loop D S} {g : List (Loop D S)} (ht : Tree o mem ok Rel L s t)
    (h : backtrackLoop o fuel L t = some g) :
    (∀ q ∈ g, Sh o L q) ∧
    (∀ q ∈ g, ∀ p y e, mem q.dom (p, y) → hasLoops (sem o mem ok p) (L + 1) y q.inner e →
      L ≤ e.args.length) ∧
    (∀ p x e, hasLoops (sem o mem ok p) L x g e ↔ hasLoop (sem o mem ok p) L x t e) ∧
    ∀ p x e f, seqLoops (sem o mem ok p) L x g e f → Rel L s e f := by
  unfold backtrackLoop at h
  by_cases hemp : t.inner.isEmpty = true
  · rw [if_pos hemp] at h
    obtain rfl := Option.some.inj h
    rw [List.isEmpty_iff] at hemp
    refine ⟨by simp, by simp, fun p x e => ?_, by simp [seqLoops]⟩
    rw [hasLoop_level ht.level, hemp]
    simp [hasLoops]
  rw [if_neg hemp] at h
  split at h
  · exact absurd h (by simp)
  rename_i sp hsp
  have hin : ∀ i ∈ t.inner, Sh o L (backtrackOne o L t.dom i) := by
    intro i hi
    unfold backtrackOne
    cases hb : i.block with
    | some b => exact ⟨ht.shape.1, rfl, rfl⟩
    | none =>
      rcases ht.top i hi with hs | ⟨hs, _⟩
      · exact ⟨(project_dom G (by rw [hs.1]; omega)).1, rfl, rfl⟩
      · exact absurd hb hs
  have hshape : ∀ q ∈ sp, Sh o L q := by
    refine separate_shape G ?_ hsp
    intro l hl
    obtain ⟨i, hi, rfl⟩ := List.mem_map.1 hl
    exact hin i hi
  obtain ⟨_, c2, c3, _, c5⟩ := C17_separate G.toSetLaws fuel _ _ hsp
  obtain ⟨hP, hO⟩ := sort_spec G (fun q hq => (hshape q hq).1) c2 h
  -- the inner loops of a piece at a point
  have hq : ∀ q ∈ g, ∀ px, mem q.dom px → ∃ ls : List (Loop D S), ls.Sublist t.inner ∧
      q.inner = ls.map star ∧
      ∀ i ∈ t.inner, i ∈ ls ↔ mem (backtrackOne o L t.dom i).dom px := by
    classical
    intro q hq px hpx
    refine ⟨t.inner.filter (fun i => decide (mem (backtrackOne o L t.dom i).dom px)),
      List.filter_sublist, ?_, fun i hi => ?_⟩
    · rw [c5 q (hP.subset hq) px hpx, flow_backtrack]
    · rw [List.mem_filter]
      simp [hi]
  have hqt : ∀ q ∈ g, ∀ p y, mem q.dom (p, y) → ∀ e,
      hasLoops (sem o mem ok p) (L + 1) y q.inner e →
      hasLoops (sem o mem ok p) (L + 1) y t.inner e := by
    intro q hq' p y hm e he
    obtain ⟨ls, l1, l2, _⟩ := hq q hq' _ hm
    rw [l2, star_hasL (fun i hi => ht.top i (l1.subset hi)), hasLoops_iff] at he
    obtain ⟨i, hi, he⟩ := he
    exact hasLoops_iff.2 ⟨i, l1.subset hi, he⟩
  have hqargs : ∀ q ∈ g, ∀ p y e, mem q.dom (p, y) →
      hasLoops (sem o mem ok p) (L + 1) y q.inner e → L ≤ e.args.length := by
    intro q hq' p y e hm he
    exact (ht.into p y e (hqt q hq' p y hm e he)).2.2
  refine ⟨fun q hq => hshape q (hP.subset hq), hqargs, ?_, ?_⟩
  · intro p x e
    rw [hasLoops_iff, hasLoop_level ht.level]
    constructor
    · rintro ⟨q, hq', he⟩
      rw [hasLoop_sh (hshape q (hP.subset hq'))] at he
      obtain ⟨y, hy, hm, he⟩ := he
      have := hqt q hq' p y hm e he
      exact ⟨y, hy, (ht.into p y e this).1, this⟩
    · rintro ⟨y, hy, hm, he⟩
      obtain ⟨i, hi, hei⟩ := hasLoops_iff.1 he
      have hbt : mem (backtrackOne o L t.dom i).dom (p, y) := by
        unfold backtrackOne
        cases hb : i.block with
        | some b => exact hm
        | none =>
          rcases ht.top i hi with hs | ⟨hs, _⟩
          · rw [hasLoop_nd hs] at hei
            obtain ⟨z, hz, hmz, _⟩ := hei
            rcases hz with ⟨_, v, rfl⟩ | ⟨hz, _⟩
            · have hpj := project_dom (L := L) G (b := i) (by rw [hs.1]; omega)
              refine (G.congr_iff (fun k hk => ?_)).2 (hpj.2 _ hmz)
              have hk' : k < L := by
                have := hpj.1
                simp only [Loop.project, Loop.dom_mk] at hk this
                omega
              rw [setAt_other (by omega)]
            · omega
          · exact absurd hb hs
      obtain ⟨q, hqs, hqm⟩ := (c3 (p, y)).2 ⟨_, List.mem_map_of_mem hi, hbt⟩
      have hqg : q ∈ g := hP.symm.subset hqs
      obtain ⟨ls, l1, l2, l3⟩ := hq q hqg _ hqm
      refine ⟨q, hqg, ?_⟩
      rw [hasLoop_sh (hshape q hqs)]
      refine ⟨y, hy, hqm, ?_⟩
      rw [l2, star_hasL (fun i hi => ht.top i (l1.subset hi))]
      exact hasLoops_iff.2 ⟨i, (l3 i hi).2 hbt, hei⟩
  · intro p x e f hs
    refine seqLoops_rel hs ?_ ?_
    · intro q hq' hsq
      rw [seqLoop_sh (hshape q (hP.subset hq'))] at hsq
      rcases hsq with ⟨y, hy, hm, hsq⟩ | ⟨_, v, w, hvw, hm, hm', he, hf⟩
      · obtain ⟨ls, l1, l2, _⟩ := hq q hq' _ hm
        rw [l2, star_seqL (fun i hi => ht.top i (l1.subset hi))] at hsq
        have hst := seqLoops_sublist l1 hsq
        refine ht.seq p x e f ?_
        rw [seqLoop_level ht.level]
        exact Or.inl ⟨y, hy, (ht.into p y e (seqLoops_has _ _ _ _ _ hst).1).1, hst⟩
      · exact value_of_has RL h0 hc he hf (hqargs q hq' _ _ _ hm he)
          (hqargs q hq' _ _ _ hm' hf)
          (by rw [setAt_same, setAt_same]; exact hvw)
    · refine List.Pairwise.imp_of_mem ?_ hO
      intro a b ha hb hab he hf
      rw [hasLoop_sh (hshape a (hP.subset ha))] at he
      rw [hasLoop_sh (hshape b (hP.subset hb))] at hf
      obtain ⟨y, hy, hm, he⟩ := he
      obtain ⟨z, hz, hm', hf⟩ := hf
      have hA : ∀ y, ((0 < L ∧ ∃ v, y = setAt x L v) ∨ (L = 0 ∧ y = x)) → Agree L x y := by
        rintro y (⟨h, v, rfl⟩ | ⟨_, rfl⟩)
        · exact agree_setAt x L v h
        · exact Agree.refl _ _
      have := hab p y z hm hm' ((hA y hy).symm.trans (hA z hz))
      exact value_of_has RL h0 hc he hf (hqargs a ha _ _ _ hm he)
        (hqargs b hb _ _ _ hm' hf) this.2

/-! ## Combination of loops with equal domains -/

/-- The loops that are merged have the same stride, or the first of them has none. -/
def SameStrides (o : DomOps D S C) : D → Option S → List (Loop D S) → Prop
  | _, _, [] => True
  | d, st, b :: ls =>
    if o.lazyEqual d b.dom = true then (st = none ∨ st = b.stride) ∧ SameStrides o d st ls
    else SameStrides o b.dom b.stride ls

/-- `SameStrides` for a list. -/
def SameStridesL (o : DomOps D S C) : List (Loop D S) → Prop
  | [] => True
  | a :: ls => SameStrides o a.dom a.stride ls

theorem sameStrides_none : ∀ (ls : List (Loop D S)) (d : D), (∀ t ∈ ls, t.stride = none) →
    SameStrides o d none ls
  | [], _, _ => trivial
  | b :: ls, d, h => by
    rw [SameStrides]
    split
    · exact ⟨Or.inl rfl, sameStrides_none ls d (fun t ht => h t (by simp [ht]))⟩
    · rw [h b (by simp)]
      exact sameStrides_none ls b.dom (fun t ht => h t (by simp [ht]))

theorem combineFrom_correct (G : GenLaws o mem) {scaldims : List Nat} {ord : Block → Block → Prop}
    {Rel : Nat → Nat → Inst → Inst → Prop} (RL : RelLaws (isScal scaldims) ord Rel) {L s : Nat}
    (h0 : 0 < L) (hc : levelIsConstant L s (isScal scaldims) = false) :
    ∀ (ls : List (Loop D S)) (a : Loop D S), (∀ t ∈ a :: ls, Level o mem ok L t) →
      SameStrides o a.dom a.stride ls →
      (∀ p x e f, seqLoops (sem o mem ok p) L x (a :: ls) e f → Rel L s e f) →
      (∀ t ∈ combineFrom o a ls, Level o mem ok L t) ∧
      (∀ p x e, hasLoops (sem o mem ok p) L x (combineFrom o a ls) e ↔
        hasLoops (sem o mem ok p) L x (a :: ls) e) ∧
      ∀ p x e f, seqLoops (sem o mem ok p) L x (combineFrom o a ls) e f → Rel L s e f := by
  intro ls
  induction ls with
  | nil =>
    intro a ha _ hs
    rw [combineFrom]
    exact ⟨ha, fun _ _ _ => Iff.rfl, hs⟩
  | cons b ls ih =>
    intro a hl hss hs
    rw [combineFrom]
    rw [SameStrides] at hss
    have ha := hl a (by simp)
    have hb := hl b (by simp)
    split
    · rename_i he
      rw [if_pos he] at hss
      have heq := G.lazyEqual _ _ he
      have hlev : Level o mem ok L (a.setInner (a.inner ++ b.inner)) := by
        refine ⟨ha.1, fun p y e hm h => ?_⟩
        rw [Loop.inner_setInner, hasLoops_append] at h
        rw [Loop.dom_setInner] at hm
        rcases h with h | h
        · exact ha.2 p y e hm h
        · obtain ⟨k1, k2⟩ := hb.2 p y e ((heq _).1 hm) h
          refine ⟨?_, k2⟩
          rw [Loop.stride_setInner]
          rcases hss.1 with h' | h'
          · rw [h']; exact adm_none
          · rw [h']; exact k1
      have hhas : ∀ p x e, hasLoop (sem o mem ok p) L x (a.setInner (a.inner ++ b.inner)) e ↔
          hasLoop (sem o mem ok p) L x a e ∨ hasLoop (sem o mem ok p) L x b e := by
        intro p x e
        rw [hasLoop_level hlev, hasLoop_level ha, hasLoop_level hb, Loop.dom_setInner, Loop.inner_setInner]
        simp only [hasLoops_append]
        constructor
        · rintro ⟨y, hy, hm, h | h⟩
          · exact Or.inl ⟨y, hy, hm, h⟩
          · exact Or.inr ⟨y, hy, (heq _).1 hm, h⟩
        · rintro (⟨y, hy, hm, h⟩ | ⟨y, hy, hm, h⟩)
          · exact ⟨y, hy, hm, Or.inl h⟩
          · exact ⟨y, hy, (heq _).2 hm, Or.inr h⟩
      obtain ⟨r1, r2, r3⟩ := ih (a.setInner (a.inner ++ b.inner)) (by
          intro t ht
          rcases List.mem_cons.1 ht with rfl | ht
          · exact hlev
          · exact hl t (by simp [ht])) hss.2 (by
          intro p x e f h
          rw [seqLoops] at h
          rcases h with h | ⟨h1, h2⟩ | h
          · rw [seqLoop_level hlev, Loop.dom_setInner, Loop.inner_setInner] at h
            rcases h with ⟨y, hy, hm, h⟩ | ⟨_, v, w, hvw, hm, hm', he, hf⟩
            · rw [seqLoops_append] at h
              rcases h with h | ⟨h1, h2⟩ | h
              · refine hs p x e f ?_
                rw [seqLoops, seqLoop_level ha]
                exact Or.inl (Or.inl ⟨y, hy, hm, h⟩)
              · refine hs p x e f ?_
                rw [seqLoops, hasLoops, hasLoop_level ha, hasLoop_level hb]
                exact Or.inr (Or.inl ⟨⟨y, hy, hm, h1⟩, Or.inl ⟨y, hy, (heq _).1 hm, h2⟩⟩)
              · refine hs p x e f ?_
                rw [seqLoops, seqLoops, seqLoop_level hb]
                exact Or.inr (Or.inr (Or.inl (Or.inl ⟨y, hy, (heq _).1 hm, h⟩)))
            · refine value_of_has RL h0 hc he hf ?_ ?_ (by rw [setAt_same, setAt_same]; exact hvw)
              · exact (hlev.2 p _ e hm he).2
              · exact (hlev.2 p _ f hm' hf).2
          · refine hs p x e f ?_
            rw [hhas] at h1
            rw [seqLoops, seqLoops, hasLoops]
            rcases h1 with h1 | h1
            · exact Or.inr (Or.inl ⟨h1, Or.inr h2⟩)
            · exact Or.inr (Or.inr (Or.inr (Or.inl ⟨h1, h2⟩)))
          · refine hs p x e f ?_
            rw [seqLoops, seqLoops]
            exact Or.inr (Or.inr (Or.inr (Or.inr h))))
      refine ⟨r1, fun p x e => ?_, r3⟩
      rw [r2, hasLoops, hasLoops, hasLoops, hhas, or_assoc]
    · rename_i he
      rw [if_neg he] at hss
      obtain ⟨r1, r2, r3⟩ := ih b (fun t ht => hl t (by simp [ht])) hss (by
        intro p x e f h
        refine hs p x e f ?_
        rw [seqLoops]
        exact Or.inr (Or.inr h))
      refine ⟨?_, ?_, ?_⟩
      · intro t ht
        rcases List.mem_cons.1 ht with rfl | ht
        · exact ha
        · exact r1 t ht
      · intro p x e
        rw [hasLoops, r2]
        conv_rhs => rw [hasLoops]
      · intro p x e f h
        rw [seqLoops, r2] at h
        rcases h with h | h | h
        · refine hs p x e f ?_
          rw [seqLoops]
          exact Or.inl h
        · refine hs p x e f ?_
          rw [seqLoops]
          exact Or.inr (Or.inl h)
        · exact r3 p x e f h

theorem combine_correct (G : GenLaws o mem) {scaldims : List Nat} {ord : Block → Block → Prop}
    {Rel : Nat → Nat → Inst → Inst → Prop} (RL : RelLaws (isScal scaldims) ord Rel) {L s : Nat}
    (h0 : 0 < L) (hc : levelIsConstant L s (isScal scaldims) = false) {B T : List (Loop D S)}
    (hT : Correct o mem ok Rel L s B T) (hl : ∀ t ∈ T, Level o mem ok L t)
    (hss : SameStridesL o T) :
    Correct o mem ok Rel L s B (combine o T) ∧ ∀ t ∈ combine o T, Level o mem ok L t := by
  cases T with
  | nil => exact ⟨hT, hl⟩
  | cons a ls =>
    obtain ⟨r1, r2, r3⟩ := combineFrom_correct G RL h0 hc ls a hl hss hT.seq
    refine ⟨⟨fun p x e => ?_, r3⟩, r1⟩
    rw [combine, r2, hT.has]

/-! ## One component -/

/-- The options covered here: no `-stop`, `-f` and `-first-unroll` not zero; the last levels to optimise
(`-l` and those of the statements) are negative or not inside the scattering, which has `n`
positions. -/
structure OptBase (opt : Options) (n : Nat) : Prop where
  stop : opt.stop < 0
  last : opt.l < 0 ∨ (n : Int) ≤ opt.l
  ls : ∀ v, opt.ls = some v → ∀ z ∈ v, z ≤ 0 ∨ (n : Int) ≤ z
  first : opt.f ≠ 0
  unroll : opt.firstUnroll ≠ 0

/-- The same without `-strides`. -/
structure OptOK (opt : Options) (n : Nat) : Prop extends OptBase opt n where
  strides : opt.strides = false

/-- No level is only nested. -/
def NoLast (opt : Options) : Prop := opt.l < 0 ∧ (opt.fs = none ∨ opt.ls = none)

theorem statementGetFl_last {opt : Options} {n : Nat} (h : OptBase opt n) :
    ∀ (ss : List Nat) (fl : Int × Int), (fl.2 ≤ 0 ∨ (n : Int) ≤ fl.2) →
      ((statementGetFl opt ss fl).2 ≤ 0 ∨ (n : Int) ≤ (statementGetFl opt ss fl).2)
  | [], fl, hf => hf
  | s :: ss, fl, hf => by
    unfold statementGetFl
    refine statementGetFl_last h ss _ ?_
    cases hfs : opt.fs with
    | none => left; simp
    | some g =>
      cases hls : opt.ls with
      | none => left; simp
      | some v =>
        simp only
        have : v.getD (s - 1) 0 ≤ 0 ∨ (n : Int) ≤ v.getD (s - 1) 0 := by
          rw [List.getD_eq_getElem?_getD]
          cases hv : v[s - 1]? with
          | none => simp
          | some z => exact h.ls v hls z (List.mem_of_getElem? hv)
        omega

theorem statementGetFl_none {opt : Options} (h : opt.fs = none ∨ opt.ls = none) :
    ∀ ss : List Nat, statementGetFl opt ss (-1, -1) = (-1, -1)
  | [] => rfl
  | s :: ss => by
    unfold statementGetFl
    rcases h with hf | hf
    · simp only [hf]
      exact statementGetFl_none (Or.inl hf) ss
    · cases hg : opt.fs with
      | none => simp only [hf]; exact statementGetFl_none (Or.inr hf) ss
      | some g => simp only [hf]; exact statementGetFl_none (Or.inr hf) ss

theorem loopsGetFl_last {opt : Options} {n : Nat} (h : OptBase opt n) (ls : List (Loop D S)) :
    ∀ fl : Int × Int, (fl.2 ≤ 0 ∨ (n : Int) ≤ fl.2) →
      ((loopsGetFl opt ls fl).2 ≤ 0 ∨ (n : Int) ≤ (loopsGetFl opt ls fl).2) := by
  refine Loop.rec_1 (D := D) (S := S)
    (motive_1 := fun l => ∀ fl : Int × Int, (fl.2 ≤ 0 ∨ (n : Int) ≤ fl.2) →
      ((loopGetFl opt l fl).2 ≤ 0 ∨ (n : Int) ≤ (loopGetFl opt l fl).2))
    (motive_2 := fun ls => ∀ fl : Int × Int, (fl.2 ≤ 0 ∨ (n : Int) ≤ fl.2) →
      ((loopsGetFl opt ls fl).2 ≤ 0 ∨ (n : Int) ≤ (loopsGetFl opt ls fl).2)) ?_ ?_ ?_ ls
  · intro d ot st b inner ih fl hf
    unfold loopGetFl
    cases b with
    | none => exact ih fl hf
    | some b => exact ih _ (statementGetFl_last h b.stmts fl hf)
  · intro fl hf
    unfold loopsGetFl
    exact hf
  · intro l ls ih1 ih2 fl hf
    rw [loopsGetFl]
    exact ih2 _ (ih1 fl hf)

theorem loopsGetFl_none {opt : Options} (h : opt.fs = none ∨ opt.ls = none)
    (ls : List (Loop D S)) : loopsGetFl opt ls (-1, -1) = (-1, -1) := by
  refine Loop.rec_1 (D := D) (S := S)
    (motive_1 := fun l => loopGetFl opt l (-1, -1) = (-1, -1))
    (motive_2 := fun ls => loopsGetFl opt ls (-1, -1) = (-1, -1)) ?_ ?_ ?_ ls
  · intro d ot st b inner ih
    unfold loopGetFl
    cases b with
    | none => exact ih
    | some b =>
      dsimp only
      rw [statementGetFl_none h]
      exact ih
  · rfl
  · intro l ls ih1 ih2
    rw [loopsGetFl, ih1, ih2]

theorem levels_ok {opt : Options} {n : Nat} (h : OptBase opt n) (ls : List (Loop D S)) :
    (levels opt ls).1 ≠ 0 ∧ ((levels opt ls).2 < 0 ∨ (n : Int) ≤ (levels opt ls).2) ∧
      (NoLast opt → (levels opt ls).2 < 0) := by
  have h1 := loopsGetFl_last h ls (-1, -1) (Or.inl (by simp))
  have h2 : NoLast opt → loopsGetFl opt ls (-1, -1) = (-1, -1) := fun hn => loopsGetFl_none hn.2 ls
  have h3 := h.first
  have h4 := h.last
  unfold levels
  dsimp only
  generalize loopsGetFl opt ls (-1, -1) = fl at h1 h2
  split
  · exact ⟨h3, h4, fun hn => hn.1⟩
  · refine ⟨by omega, Or.inr (by omega), fun hn => ?_⟩
    rw [h2 hn] at *
    simp_all

theorem backtrack_correct (G : GenLaws o mem) {scaldims : List Nat} {ord : Block → Block → Prop}
    {Rel : Nat → Nat → Inst → Inst → Prop} (RL : RelLaws (isScal scaldims) ord Rel) {L s : Nat}
    (h0 : 0 < L) (hc : levelIsConstant L s (isScal scaldims) = false) {fuel : Nat}
    {B T T' : List (Loop D S)} (hT : Trees o mem ok Rel L s B T)
    (h : backtrack o fuel L T = some T') :
    Correct o mem ok Rel L s B T' ∧ ∀ t ∈ T', Level o mem ok L t ∧ t.stride = none := by
  have key : ∀ T T' : List (Loop D S), (∀ t ∈ T, Tree o mem ok Rel L s t) →
      (∀ p x e f, seqLoops (sem o mem ok p) L x T e f → Rel L s e f) →
      backtrack o fuel L T = some T' →
      (∀ t ∈ T', Level o mem ok L t ∧ t.stride = none) ∧
      (∀ p x e, hasLoops (sem o mem ok p) L x T' e ↔ hasLoops (sem o mem ok p) L x T e) ∧
      ∀ p x e f, seqLoops (sem o mem ok p) L x T' e f → Rel L s e f := by
    intro T
    unfold backtrack
    induction T with
    | nil =>
      intro T' _ hs h
      rw [flatMapM] at h
      obtain rfl := Option.some.inj h
      exact ⟨by simp, fun _ _ _ => Iff.rfl, hs⟩
    | cons t T ih =>
      intro T' ht hs h
      rw [flatMapM] at h
      split at h
      · exact absurd h (by simp)
      · rename_i g hg
        split at h
        · exact absurd h (by simp)
        · rename_i cs hcs
          obtain rfl := Option.some.inj h
          obtain ⟨i1, i2, i3⟩ := ih cs (fun t h => ht t (by simp [h])) (by
            intro p x e f h
            refine hs p x e f ?_
            rw [seqLoops]
            exact Or.inr (Or.inr h)) hcs
          obtain ⟨b1, b2, b3, b4⟩ := backtrack_one G RL h0 hc (ht t (by simp)) hg
          refine ⟨?_, ?_, ?_⟩
          · intro q hq
            rcases List.mem_append.1 hq with hq | hq
            · obtain ⟨q1, q2, q3⟩ := b1 q hq
              refine ⟨⟨⟨q1, q2⟩, fun p y e hm he => ⟨?_, b2 q hq p y e hm he⟩⟩, q3⟩
              rw [q3]; exact adm_none
            · exact i1 q hq
          · intro p x e
            rw [hasLoops_append, b3, i2, hasLoops]
          · intro p x e f h
            rw [seqLoops_append, b3, i2] at h
            rcases h with h | h | h
            · exact b4 p x e f h
            · refine hs p x e f ?_
              rw [seqLoops]
              exact Or.inr (Or.inl h)
            · exact i3 p x e f h
  obtain ⟨k1, k2, k3⟩ := key T T' hT.tree hT.correct.seq h
  refine ⟨⟨fun p x e => ?_, k3⟩, k1⟩
  rw [k2, hT.correct.has]

/-! ## Loops without strides, and propagation of bounds -/

theorem step3b_plain {L s : Nat} {c : Ctx} {sep : Bool} {Q R : List (Loop D S)}
    (hQ : ∀ q ∈ Q, q.stride = none) (h : step3b o c L s sep Q = some R) : ∀ r ∈ R, r.stride = none := by
  unfold step3b at h
  split at h
  · exact absurd h (by simp)
  · rename_i r hr
    have hri : ∀ q ∈ restrictInner o r, q.stride = none := by
      intro q hq
      unfold restrictInner at hq
      obtain ⟨l, hl, hlq⟩ := List.mem_filterMap.1 hq
      split at hlq
      · exact absurd hlq (by simp)
      · obtain rfl := Option.some.inj hlq
        exact hQ l (sort_mem hr l hl)
    split at h
    · unfold specialize at h
      split at h
      · exact absurd h (by simp)
      · rename_i ds hds
        obtain rfl := Option.some.inj h
        have hd : ∀ q ∈ ds, q.stride = none := by
          intro q hq
          obtain ⟨a, ha, bs, hbs, hqb⟩ := flatMapM_mem hds hq
          unfold decomposeOne at hbs
          split at hbs
          · obtain rfl := Option.some.inj hbs
            rw [List.mem_singleton.1 hqb]
            exact hri a ha
          · split at hbs
            · exact absurd hbs (by simp)
            · obtain rfl := Option.some.inj hbs
              obtain ⟨c, _, rfl⟩ := List.mem_map.1 hqb
              exact hri a ha
        intro q hq
        unfold removeEmpty at hq
        obtain ⟨l, hl, rfl⟩ := List.mem_map.1 (List.mem_filter.1 hq).1
        unfold specializeOne
        split
        · split
          · exact hd l hl
          · exact hd l hl
        · exact hd l hl
    · obtain rfl := Option.some.inj h
      exact hri

theorem recurseBelow_stride {c : Ctx} {gen : List (Loop D S) → D → Nat → Nat → Option (List (Loop D S))}
    {L s : Nat} {l t : Loop D S} (h : recurseBelow o c gen L s l = some t) : t.stride = l.stride := by
  unfold recurseBelow at h
  dsimp only at h
  split at h
  · exact absurd h (by simp)
  · obtain rfl := Option.some.inj h
    rw [Loop.stride_setInner]
    obtain ⟨d, ot, st, b, inner⟩ := l
    split <;> rfl

theorem recurse_plain {c : Ctx} (hns : c.opt.strides = false)
    {gen : List (Loop D S) → D → Nat → Nat → Option (List (Loop D S))} {L s : Nat} {cst : Bool}
    {R T : List (Loop D S)} (hR : ∀ r ∈ R, r.stride = none)
    (h : recurse o c gen cst L s R = some T) : ∀ t ∈ T, t.stride = none := by
  intro t ht
  unfold recurse at h
  obtain ⟨r, hr, g, hg, htg⟩ := flatMapM_mem h ht
  unfold loopRecurse at hg
  have hconst : ∀ m g', m.stride = none → loopRecurseConst o c gen L s m = some g' →
      ∀ t ∈ g', t.stride = none := by
    intro m g' hm hg' t ht
    unfold loopRecurseConst at hg'
    rw [Option.map_eq_some_iff] at hg'
    obtain ⟨u, hu, rfl⟩ := hg'
    rw [List.mem_singleton.1 ht, recurseBelow_stride hu]
    exact hm
  have hun : ∀ m ∈ unrollOne o L r, m.stride = none := by
    intro m hm
    unfold unrollOne at hm
    split at hm
    · rw [List.mem_singleton.1 hm]
      exact hR r hr
    · obtain ⟨k, _, hk⟩ := List.mem_filterMap.1 hm
      dsimp only at hk
      split at hk
      · exact absurd hk (by simp)
      · obtain rfl := Option.some.inj hk
        rfl
  have hprep : recursePrepare o c cst L s r =
      if cst = false ∧ 0 ≤ c.opt.firstUnroll ∧ c.opt.firstUnroll ≤ L + s then
        unrolled (unrollOne o L r)
      else some (.inl r) := by
    unfold recursePrepare
    dsimp only
    rw [if_neg (show ¬ (0 < L ∧ c.opt.strides = true ∧ cst = false) by simp [hns])]
  rw [hprep] at hg
  by_cases hu : cst = false ∧ 0 ≤ c.opt.firstUnroll ∧ c.opt.firstUnroll ≤ L + s
  · rw [if_pos hu] at hg
    generalize unrollOne o L r = ms at hg hun
    match ms, hg with
    | [m], hg =>
      simp only [unrolled] at hg
      exact hconst m g (hun m (by simp)) hg t htg
    | a :: b :: ms, hg =>
      simp only [unrolled] at hg
      obtain ⟨m, hm, g', hg', htg'⟩ := flatMapM_mem hg htg
      exact hconst m g' (hun m hm) hg' t htg'
  · rw [if_neg hu] at hg
    exact hconst r g (hR r hr) hg t htg

/-- `cloog_loop_propagate_lower_bound` for one loop. -/
theorem propagate_one (G : GenLaws o mem) {Rel : Nat → Nat → Inst → Inst → Prop} {L s : Nat}
    {t : Loop D S} (ht : Tree o mem ok Rel L s t) :
    Tree o mem ok Rel L s (propagateOne o t) ∧
    (∀ p x e, hasLoop (sem o mem ok p) L x (propagateOne o t) e ↔ hasLoop (sem o mem ok p) L x t e) ∧
    ∀ p x e f, seqLoop (sem o mem ok p) L x (propagateOne o t) e f →
      seqLoop (sem o mem ok p) L x t e f := by
  unfold propagateOne
  split
  · rename_i i hi
    split
    · have htop := ht.top i (by rw [hi]; simp)
      have hL : L ≤ o.dim i.dom := by
        rcases htop with h | ⟨_, _, h⟩
        · have := h.1; omega
        · omega
      have hd : o.dim t.dom = L := ht.shape.1
      have hpd := G.dim_project i.dom (o.dim t.dom) (by rw [hd]; exact hL)
      have hnd : o.dim (o.inter (o.project i.dom (o.dim t.dom)) t.dom) = L := by
        rw [G.dim_inter _ _ hpd, hd]
      have hpj : ∀ p y e, hasLoops (sem o mem ok p) (L + 1) y t.inner e →
          mem (o.project i.dom (o.dim t.dom)) (p, y) := by
        intro p y e he
        rw [hi, hasLoops, hasLoops, or_false] at he
        have key : ∃ z, (∀ k, k < L → y k = z k) ∧ mem i.dom (p, z) := by
          rcases htop with h | ⟨_, h1, h2⟩
          · rw [hasLoop_nd h] at he
            obtain ⟨z, hz, hm, _⟩ := he
            rcases hz with ⟨_, v, rfl⟩ | ⟨h0, _⟩
            · exact ⟨_, fun k hk => by rw [setAt_other (by omega)], hm⟩
            · omega
          · obtain ⟨d, ot, st, b, inner⟩ := i
            rw [hasLoop_mk] at he
            obtain ⟨z, hv, _⟩ := he
            unfold Visits at hv
            simp only [Loop.dom_mk] at h2
            rw [if_neg (by simp only [sem]; omega)] at hv
            exact ⟨z, fun k _ => by rw [hv.1], hv.2⟩
        obtain ⟨z, hz, hm⟩ := key
        refine (G.congr_iff (fun k hk => ?_)).2 (G.project i.dom _ _ (by rw [hd]; exact hL) hm)
        exact hz k (by omega)
      have hmem : ∀ px, mem (t.setDom (o.inter (o.project i.dom (o.dim t.dom)) t.dom)).dom px →
          mem t.dom px := fun px h => by
        rw [Loop.dom_setDom, G.inter] at h
        exact h.2
      have hshape : Nd o L (t.setDom (o.inter (o.project i.dom (o.dim t.dom)) t.dom)) :=
        ⟨hnd, ht.shape.2⟩
      have hseq : ∀ p x e f, seqLoop (sem o mem ok p) L x
          (t.setDom (o.inter (o.project i.dom (o.dim t.dom)) t.dom)) e f →
          seqLoop (sem o mem ok p) L x t e f := by
        intro p x e f h
        rw [seqLoop_nd hshape] at h
        rw [seqLoop_nd ht.shape]
        rcases h with ⟨y, hy, hm, hs, h⟩ | ⟨h0, v, w, hvw, hm, hm', hs, he, hf⟩
        · exact Or.inl ⟨y, hy, hmem _ hm, hs, h⟩
        · exact Or.inr ⟨h0, v, w, hvw, hmem _ hm, hmem _ hm', hs, he, hf⟩
      refine ⟨⟨hshape, ht.top, ?_, fun p x e f h => ht.seq p x e f (hseq p x e f h)⟩, ?_, hseq⟩
      · intro p y e he
        obtain ⟨h1, h2⟩ := ht.into p y e he
        refine ⟨?_, h2⟩
        rw [Loop.dom_setDom, G.inter]
        exact ⟨hpj p y e he, h1⟩
      · intro p x e
        rw [hasLoop_nd hshape, hasLoop_nd ht.shape]
        constructor
        · rintro ⟨y, hy, hm, hs, he⟩
          exact ⟨y, hy, hmem _ hm, hs, he⟩
        · rintro ⟨y, hy, hm, hs, he⟩
          refine ⟨y, hy, ?_, hs, he⟩
          rw [Loop.dom_setDom, G.inter]
          exact ⟨hpj p y e he, hm⟩
    · exact ⟨ht, fun _ _ _ => Iff.rfl, fun _ _ _ _ h => h⟩
  · exact ⟨ht, fun _ _ _ => Iff.rfl, fun _ _ _ _ h => h⟩

theorem propagate_trees (G : GenLaws o mem) {Rel : Nat → Nat → Inst → Inst → Prop} {L s : Nat}
    {B T : List (Loop D S)} (hT : Trees o mem ok Rel L s B T) :
    Trees o mem ok Rel L s B (propagate o T) := by
  have key : ∀ T : List (Loop D S), (∀ t ∈ T, Tree o mem ok Rel L s t) →
      (∀ p x e, hasLoops (sem o mem ok p) L x (propagate o T) e ↔ hasLoops (sem o mem ok p) L x T e) ∧
      ∀ p x e f, seqLoops (sem o mem ok p) L x (propagate o T) e f →
        seqLoops (sem o mem ok p) L x T e f := by
    intro T
    unfold propagate
    induction T with
    | nil => exact fun _ => ⟨fun _ _ _ => Iff.rfl, fun _ _ _ _ h => h⟩
    | cons t T ih =>
      intro ht
      obtain ⟨i1, i2⟩ := ih (fun u hu => ht u (by simp [hu]))
      obtain ⟨_, h2, h3⟩ := propagate_one G (ht t (by simp))
      refine ⟨fun p x e => ?_, fun p x e f h => ?_⟩
      · rw [List.map_cons, hasLoops, hasLoops, h2, i1]
      · rw [List.map_cons, seqLoops, h2, i1] at h
        rw [seqLoops]
        rcases h with h | h | h
        · exact Or.inl (h3 p x e f h)
        · exact Or.inr (Or.inl h)
        · exact Or.inr (Or.inr (i2 p x e f h))
  obtain ⟨k1, k2⟩ := key T hT.tree
  refine ⟨⟨fun p x e => ?_, fun p x e f h => hT.correct.seq p x e f (k2 p x e f h)⟩, ?_⟩
  · rw [k1, hT.correct.has]
  · intro t ht
    unfold propagate at ht
    obtain ⟨u, hu, rfl⟩ := List.mem_map.1 ht
    exact (propagate_one G (hT.tree u hu)).1

theorem generateGeneral_correct (G : GenLaws o mem) {c : Ctx} (W : WFScal c.scaldims)
    (hopt : OptBase c.opt c.scaldims.length) (hns : c.opt.strides = true → StrideLaws o mem ok)
    {ord : Block → Block → Prop} {Rel : Nat → Nat → Inst → Inst → Prop}
    (RL : RelLaws (isScal c.scaldims) ord Rel)
    (hfree : NoLast c.opt ∨ (Free (isScal c.scaldims) Rel ∧ ∀ u, ¬ ord u u)) {L s : Nat}
    (hp : Pos (isScal c.scaldims) L s) (hc : levelIsConstant L s (isScal c.scaldims) = false)
    {gen : List (Loop D S) → D → Nat → Nat → Option (List (Loop D S))}
    (hgen : ∀ B d T, Pre o c.scaldims ord (L + 1) s B → gen B d (L + 1) s = some T →
      Correct o mem ok Rel (L + 1) s B T ∧ ∀ t ∈ T, Top o (L + 1) t)
    {fuel : Nat} {B T : List (Loop D S)} (hB : Pre o c.scaldims ord L s B)
    (h : generateGeneral o fuel c gen L s (projectAll o B L) = some T) :
    Correct o mem ok Rel L s B T ∧
      ∀ t ∈ T, Level o mem ok L t ∧ (c.opt.strides = false → t.stride = none) := by
  have h0s : L = 0 → s = 0 := by
    rintro rfl
    rcases hp with ⟨_, h⟩ | ⟨h, _⟩
    · exact h
    · omega
  have hdim : ∀ b ∈ B, L ≤ o.dim b.dom := fun b hb =>
    more_dim hp hc (hB.keys.dims (b.block, o.dim b.dom) (List.mem_map_of_mem hb)) (hB.more b hb)
  unfold generateGeneral at h
  obtain ⟨l1, l2, l3⟩ := levels_ok hopt (projectAll o B L)
  dsimp only at h
  generalize levels c.opt (projectAll o B L) = fl at h l1 l2 l3
  split at h
  · exact absurd h (by simp)
  · rename_i r3 sep cst hr3
    have hQ := step3_pieces G hdim hr3
    have hQc := step3_convex G hr3
    have hsep : sep = true → 0 < L := by
      intro hse
      unfold step3 at hr3
      split at hr3
      · simp only [Option.some.injEq, Prod.mk.injEq] at hr3
        rw [← hr3.2.1] at hse
        exact absurd hse (by simp)
      · split at hr3
        · rw [Option.map_eq_some_iff] at hr3
          obtain ⟨r, _, hr⟩ := hr3
          simp only [Prod.mk.injEq] at hr
          rw [← hr.2.1] at hse
          exact absurd hse (by simp)
        · rename_i hf
          rcases Nat.eq_zero_or_pos L with hz | hz
          · have := h0s hz
            omega
          · exact hz
    split at h
    · exact absurd h (by simp)
    · rename_i r3b hr3b
      have hS := step3b_stage (ok := ok) (Rel := Rel) G W RL hp hc hsep hB.keys
        (fun b hb => ⟨hB.inner b hb, hdim b hb⟩) hQ hr3b
      split at h
      · exact absurd h (by simp)
      · rename_i r4 hr4
        unfold step4 at hr4
        have hT : Trees o mem ok Rel L s B r4 := by
          split at hr4
          · exact recurse_trees (ok := ok) G hns hopt.unroll RL hp hc hgen hB.keys hS
              (step3b_convex hQc hr3b) hr4
          · rename_i hnl
            rcases hfree with hn | ⟨hf, hirr⟩
            · have := l3 hn
              omega
            · exact nestBelow_trees G hirr RL hf hp hc (by omega) hB.keys hS hr4
        have hpl : c.opt.strides = false → ∀ t ∈ r4, t.stride = none := by
          intro hs
          have h3 := step3b_plain (fun q hq => (hQ.shape q hq).2.2) hr3b
          split at hr4
          · exact recurse_plain hs h3 hr4
          · intro t ht
            obtain ⟨r, _, g, hg, htg⟩ := flatMapM_mem hr4 ht
            unfold nestBelow at hg
            split at hg
            · exact absurd hg (by simp)
            · obtain rfl := Option.some.inj hg
              rw [List.mem_singleton.1 htg]
              rfl
        unfold step5 at h
        dsimp only at h
        obtain ⟨r5, hr5, hT5, hpl5⟩ : ∃ r5, (if c.opt.strides = true then propagate o r4 else r4) = r5 ∧
            Trees o mem ok Rel L s B r5 ∧ (c.opt.strides = false → ∀ t ∈ r5, t.stride = none) := by
          by_cases hs : c.opt.strides = true
          · exact ⟨_, if_pos hs, propagate_trees G hT, fun h => by rw [hs] at h; exact absurd h (by simp)⟩
          · exact ⟨_, if_neg hs, hT, hpl⟩
        rw [hr5] at h
        split at h
        · rename_i hb
          have hbt := backtrack_correct G RL hb.2.1 hc hT5 h
          exact ⟨hbt.1, fun t ht => ⟨(hbt.2 t ht).1, fun _ => (hbt.2 t ht).2⟩⟩
        · obtain rfl := Option.some.inj h
          exact ⟨hT5.correct, fun t ht => ⟨(hT5.tree t ht).level, fun hs => hpl5 hs t ht⟩⟩

/-! ## Components -/

theorem componentsOf_map {α : Type} (f : Loop D S → Loop D S)
    (fol : Loop D S → Loop D S → Bool → Bool) (B : List (Loop D S)) :
    componentsOf fol (B.map f) =
      (componentsOf (fun a b => fol (f a) (f b)) B).map (fun cs => cs.map (fun c => c.map f)) := by
  have he : edge fol (B.map f) = edge (fun a b => fol (f a) (f b)) B := by
    funext i j
    unfold edge
    rw [List.getElem?_map, List.getElem?_map]
    cases B[i]? <;> cases B[j]? <;> rfl
  unfold componentsOf
  rw [he, List.length_map]
  cases Tarjan.components (edge (fun a b => fol (f a) (f b)) B) B.length (fun _ => (0, false)) with
  | none => rfl
  | some cs =>
    simp only [Option.map_some, Option.some.injEq, List.map_map]
    apply List.map_congr_left
    intro c _
    simp only [Function.comp, List.getElem?_map]
    rw [List.map_filterMap]

/-- `generateComponents` with a replacement for `combine` that may fail. -/
def generateComponentsC (o : DomOps D S C) (comb : List (Loop D S) → Option (List (Loop D S)))
    (fuel : Nat) (c : Ctx) (gen : List (Loop D S) → D → Nat → Nat → Option (List (Loop D S)))
    (level scalar : Nat) (ls : List (Loop D S)) : Option (List (Loop D S)) :=
  if level = 0 ∨ ls.length ≤ 1 then generateGeneral o fuel c gen level scalar ls
  else
    match componentsOf (fun a b => innerFollows o a b level scalar c.scaldims) ls with
    | none => none
    | some cs =>
      match flatMapM (generateGeneral o fuel c gen level scalar) cs with
      | none => none
      | some r => comb r

/-- `comb` is `combine` and only succeeds if the merged loops have the same stride. -/
def CombOK (o : DomOps D S C) (opt : Options)
    (comb : List (Loop D S) → Option (List (Loop D S))) : Prop :=
  ∀ T T', comb T = some T' → (opt.strides = false → ∀ t ∈ T, t.stride = none) →
    T' = combine o T ∧ SameStridesL o T

theorem generateComponents_correct (G : GenLaws o mem) {c : Ctx} (W : WFScal c.scaldims)
    (hopt : OptBase c.opt c.scaldims.length) (hns : c.opt.strides = true → StrideLaws o mem ok)
    {ord : Block → Block → Prop} {Rel : Nat → Nat → Inst → Inst → Prop}
    (RL : RelLaws (isScal c.scaldims) ord Rel)
    (hfree : NoLast c.opt ∨ (Free (isScal c.scaldims) Rel ∧ ∀ u, ¬ ord u u)) {L s : Nat}
    (hp : Pos (isScal c.scaldims) L s) (hc : levelIsConstant L s (isScal c.scaldims) = false)
    {comb : List (Loop D S) → Option (List (Loop D S))} (hcomb : CombOK o c.opt comb)
    {gen : List (Loop D S) → D → Nat → Nat → Option (List (Loop D S))}
    (hgen : ∀ B d T, Pre o c.scaldims ord (L + 1) s B → gen B d (L + 1) s = some T →
      Correct o mem ok Rel (L + 1) s B T ∧ ∀ t ∈ T, Top o (L + 1) t)
    {fuel : Nat} {B T : List (Loop D S)} (hB : Pre o c.scaldims ord L s B)
    (h : generateComponentsC o comb fuel c gen L s (projectAll o B L) = some T) :
    Correct o mem ok Rel L s B T ∧ ∀ t ∈ T, Nd o L t := by
  unfold generateComponentsC at h
  split at h
  · have := generateGeneral_correct (ok := ok) G W hopt hns RL hfree hp hc hgen hB h
    exact ⟨this.1, fun t ht => (this.2 t ht).1.1⟩
  · rename_i hcond
    have h0 : 0 < L := by omega
    have hpa : projectAll o B L = B.map (Loop.project o L) := rfl
    rw [hpa, componentsOf_map (α := Unit)] at h
    split at h
    · exact absurd h (by simp)
    · rename_i cs' hcs
      rw [Option.map_eq_some_iff] at hcs
      obtain ⟨cs, hcs, rfl⟩ := hcs
      split at h
      · exact absurd h (by simp)
      · rename_i r hr
        obtain ⟨c1, c2, c3⟩ := components_before (Rel := Rel) G W RL hB.keys h0 hp
          (fol := fun a b => innerFollows o (Loop.project o L a) (Loop.project o L b) L s c.scaldims)
          (by
            intro a b d hf
            unfold innerFollows at hf
            simp only [Loop.project, Loop.inner_mk, Bool.or_eq_false_iff] at hf
            exact hf.2) hcs
        have key : ∀ (cs : List (List (Loop D S))) (r : List (Loop D S)),
            (∀ c ∈ cs, c.Sublist B) →
            flatMapM (generateGeneral o fuel c gen L s) (cs.map (fun c => c.map (Loop.project o L))) =
              some r →
            ∃ Ts, r = List.flatten Ts ∧ List.Forall₂ (Correct o mem ok Rel L s) cs Ts ∧
              ∀ t ∈ r, Level o mem ok L t ∧ (c.opt.strides = false → t.stride = none) := by
          intro cs
          induction cs with
          | nil =>
            intro r _ h
            rw [List.map_nil, flatMapM] at h
            obtain rfl := Option.some.inj h
            exact ⟨[], rfl, .nil, by simp⟩
          | cons k cs ih =>
            intro r hk h
            rw [List.map_cons, flatMapM] at h
            split at h
            · exact absurd h (by simp)
            · rename_i bs hbs
              split at h
              · exact absurd h (by simp)
              · rename_i ds hds
                obtain rfl := Option.some.inj h
                obtain ⟨Ts, rfl, t2, t3⟩ := ih ds (fun c hc => hk c (by simp [hc])) hds
                have hkB := hk k (by simp)
                have hpre : Pre o c.scaldims ord L s k :=
                  ⟨fun b hb => hB.inner b (hkB.subset hb), fun b hb => hB.more b (hkB.subset hb),
                    fun b hb => hB.low b (hkB.subset hb),
                    hB.keys.sublist (keys_sublist hkB), hp⟩
                have := generateGeneral_correct (ok := ok) G W hopt hns RL hfree hp hc hgen hpre hbs
                refine ⟨bs :: Ts, rfl, .cons this.1 t2, ?_⟩
                intro t ht
                rcases List.mem_append.1 ht with ht | ht
                · exact this.2 t ht
                · exact t3 t ht
        obtain ⟨Ts, rfl, t2, t3⟩ := key cs r c1 hr
        have hC := (Correct.flatten t2 c3).congr (B := B) (by
          intro l
          rw [List.mem_flatten]
          constructor
          · rintro ⟨c, hc, hl⟩
            exact (c1 c hc).subset hl
          · intro hl
            obtain ⟨c, hc, hlc⟩ := c2 l hl
            exact ⟨c, hc, hlc⟩)
        obtain ⟨rfl, hss⟩ := hcomb _ _ h (fun hs t ht => (t3 t ht).2 hs)
        have := combine_correct G RL h0 hc hC (fun t ht => (t3 t ht).1) hss
        exact ⟨this.1, fun t ht => (this.2 t ht).1⟩

/-! ## Scalar levels -/

theorem span_group (o : DomOps D S C) (c : Ctx) (L s s' : Nat) (ref : Loop D S)
    (ls : List (Loop D S)) :
    (scalarGroup o c L s s' ref ls).1 ++ (scalarGroup o c L s s' ref ls).2 = ls ∧
      (∀ l ∈ (scalarGroup o c L s s' ref ls).1, more o l L s' c.scaldims.length = true ∧
        scalarEq o.icmp L (isScal c.scaldims) s (scalOf ref) (scalOf l) = true) ∧
      ∀ l r, (scalarGroup o c L s s' ref ls).2 = l :: r → more o l L s' c.scaldims.length = false ∨
        scalarEq o.icmp L (isScal c.scaldims) s (scalOf ref) (scalOf l) = false := by
  unfold scalarGroup
  rw [List.span_eq_takeWhile_dropWhile]
  refine ⟨List.takeWhile_append_dropWhile, ?_, ?_⟩
  · intro l hl
    have := List.all_takeWhile (p := fun m => more o m L s' c.scaldims.length &&
      scalarEq o.icmp L (isScal c.scaldims) s (scalOf ref) (scalOf m)) (l := ls)
    rw [List.all_eq_true] at this
    simpa using this l hl
  · intro l r h
    dsimp only at h
    have := List.head_dropWhile_not (fun m => more o m L s' c.scaldims.length &&
      scalarEq o.icmp L (isScal c.scaldims) s (scalOf ref) (scalOf m)) (l := ls) (by rw [h]; simp)
    simp only [h, List.head_cons, Bool.and_eq_false_iff] at this
    exact this

theorem generateScalar_correct (G : GenLaws o mem) {c : Ctx} (W : WFScal c.scaldims)
    {ord : Block → Block → Prop} {Rel : Nat → Nat → Inst → Inst → Prop}
    (RL : RelLaws (isScal c.scaldims) ord Rel) {L s : Nat}
    (hp : Pos (isScal c.scaldims) L s) (hc : levelIsConstant L s (isScal c.scaldims) = true)
    {gen : List (Loop D S) → Nat → Option (List (Loop D S))}
    (hgen : ∀ B s' T, Pre o c.scaldims ord L s' B → gen B s' = some T →
      Correct o mem ok Rel L s' B T ∧ ∀ t ∈ T, Top o L t)
    {B T : List (Loop D S)} (hB : Pre o c.scaldims ord L s B)
    (h : generateScalar o c gen L s B = some T) :
    Correct o mem ok Rel L s B T ∧ ∀ t ∈ T, Top o L t := by
  classical
  have hlen : (isScal c.scaldims).length = c.scaldims.length := by simp [isScal]
  obtain ⟨hk, hrun⟩ := isRun_of_const W hc
  have h0 : 0 < L := hrun.1
  unfold generateScalar at h
  dsimp only at h
  generalize runLength c.scaldims (L + s - 1) = k at h hk hrun
  obtain ⟨srt, s1, s2, s3, s4⟩ := C20_scalar_sort (scalOf (D := D) (S := S)) o.icmp G.icmp L
    (isScal c.scaldims) s k hrun B
  rw [s1 _ (Nat.lt_succ_self _)] at h
  dsimp only at h
  have hposn : Pos (isScal c.scaldims) L (s + k) := pos_scal h0 hp hrun.2.1
  -- comparison of two scalar vectors
  have hse : ∀ a b : Loop D S, scalarEq o.icmp L (isScal c.scaldims) s (scalOf a) (scalOf b) = true ↔
      LexEq s k (scalOf a) (scalOf b) := by
    intro a b
    unfold scalarEq
    rw [beq_iff_eq]
    exact (constantCmp_spec o.icmp G.icmp L (isScal c.scaldims) (scalOf a) (scalOf b) k s hrun).2
  have eqsymm : ∀ {a b : Nat → Int}, LexEq s k a b → LexEq s k b a := fun h j hj => (h j hj).symm
  have eqtrans : ∀ {a b d : Nat → Int}, LexEq s k a b → LexEq s k b d → LexEq s k a d :=
    fun h h' j hj => (h j hj).trans (h' j hj)
  -- pairs of the sorted list
  have hcls : ∀ (l : Loop D S) (ms : List (Loop D S)), ms.Sublist srt →
      (∀ m ∈ ms, LexEq s k (scalOf l) (scalOf m)) → ms.Sublist B := by
    intro l ms hms hm
    have hf := s4 (fun m => decide (LexEq s k (scalOf l) (scalOf m))) (by
      intro x y hx hy
      simp only [decide_eq_true_eq] at hx hy
      exact eqtrans (eqsymm hx) hy)
    have h1 : (ms.filter (fun m => decide (LexEq s k (scalOf l) (scalOf m)))) = ms := by
      rw [List.filter_eq_self]
      intro m hmm
      simpa using hm m hmm
    rw [← h1]
    refine (hms.filter _).trans ?_
    rw [hf]
    exact List.filter_sublist
  have hpair : ∀ a b, [a, b].Sublist srt →
      LexLt s k (scalOf a) (scalOf b) ∨ (LexEq s k (scalOf a) (scalOf b) ∧ [a, b].Sublist B) := by
    intro a b hab
    have hn := s3.sublist hab
    simp only [List.pairwise_cons, List.mem_singleton, forall_eq] at hn
    rcases lexLt_trichotomy 0 k (scalOf a) (scalOf b) s with h | h | h
    · exact Or.inl h
    · refine Or.inr ⟨h, hcls a [a, b] hab ?_⟩
      intro m hm
      simp only [List.mem_cons, List.not_mem_nil, or_false] at hm
      rcases hm with rfl | rfl
      · exact fun j _ => rfl
      · exact h
    · exact absurd h hn.1
  have hordB : ∀ a b, [a, b].Sublist B → ∀ u v, a.block = some u → b.block = some v → ord u v := by
    intro a b hab
    have := hB.keys.ord
    unfold keys at this
    rw [List.pairwise_map] at this
    have := this.sublist hab
    simp only [List.pairwise_cons, List.mem_singleton, forall_eq] at this
    exact this.1
  have hlast : (isScal c.scaldims).length < L + (s + k) → ∀ a b, [a, b].Sublist B →
      o.dim b.dom ≤ o.dim a.dom := by
    intro hl a b hab
    have hla : (isScal c.scaldims).getLast? = some true := by
      have := hrun.2.1 (k - 1) (by omega)
      have hlt := (List.getElem?_eq_some_iff.1 this).1
      rw [List.getLast?_eq_getElem?, show (isScal c.scaldims).length - 1 = L + s + (k - 1) - 1 by
        omega]
      exact this
    have := hB.keys.last hla
    unfold keys at this
    rw [List.pairwise_map] at this
    have := this.sublist hab
    simp only [List.pairwise_cons, List.mem_singleton, forall_eq] at this
    exact this.1
  have hnm : ∀ l : Loop D S, more o l L (s + k) c.scaldims.length = false →
      (isScal c.scaldims).length < L + (s + k) ∧ o.dim l.dom < L := by
    intro l h
    unfold more at h
    simp only [Bool.or_eq_false_iff, decide_eq_false_iff_not] at h
    omega
  have hsc : ∀ (a : Loop D S) x e, At o a x e → scalOf a = scalF e.block := fun a x e h =>
    scalOf_eq h.1
  -- two loops with different scalar vectors, and two with the same one the second of which is
  -- terminal
  have hlt : ∀ a b : Loop D S, LexLt s k (scalOf a) (scalOf b) → Before o mem Rel L s a b := by
    intro a b hab p x y _ _ _ e f he hf
    rw [hsc a x e he, hsc b y f hf] at hab
    exact RL.scalLt L s k e f hrun hab
  have heq : ∀ a b : Loop D S, LexEq s k (scalOf a) (scalOf b) → [a, b].Sublist B →
      (isScal c.scaldims).length < L + (s + k) → (o.dim a.dom < L ∨ o.dim b.dom < L) →
      Before o mem Rel L s a b := by
    intro a b hab hsub hl hd p x y _ _ _ e f he hf
    rw [hsc a x e he, hsc b y f hf] at hab
    refine RL.scalEq L s k e f hrun hab (RL.term L (s + k) e f hl ?_ (hordB a b hsub _ _ he.1 hf.1))
    rw [at_length he, at_length hf]
    exact hd
  have key : ∀ (n : Nat) (ls T : List (Loop D S)), ls.Sublist srt →
      scalarLoop o c (fun g => gen g (s + k)) L s (s + k) n ls = some T →
      Correct o mem ok Rel L s ls T ∧ ∀ t ∈ T, Top o L t := by
    intro n
    induction n with
    | zero =>
      intro ls T _ h
      match ls, h with
      | [], h =>
        simp only [scalarLoop] at h
        obtain rfl := Option.some.inj h
        exact ⟨Correct.nil, by simp⟩
    | succ n ih =>
      intro ls T hsub h
      match ls, h with
      | [], h =>
        simp only [scalarLoop] at h
        obtain rfl := Option.some.inj h
        exact ⟨Correct.nil, by simp⟩
      | l :: ls, h =>
        rw [scalarLoop] at h
        obtain ⟨g1, g2, g3⟩ := span_group o c L s (s + k) l ls
        generalize (scalarGroup o c L s (s + k) l ls).1 = A at h g1 g2
        generalize (scalarGroup o c L s (s + k) l ls).2 = R at h g1 g3
        have hsubR : R.Sublist srt := by
          rw [← g1] at hsub
          exact (List.sublist_append_right A R).trans ((List.sublist_cons_self l _).trans hsub)
        by_cases hm : more o l L (s + k) c.scaldims.length = true
        · rw [if_pos hm] at h
          split at h
          · exact absurd h (by simp)
          · rename_i r hr
            split at h
            · exact absurd h (by simp)
            · rename_i rs hrs
              obtain rfl := Option.some.inj h
              have hiR := ih R rs hsubR hrs
              have hgl : ∀ m ∈ l :: A, LexEq s k (scalOf l) (scalOf m) := by
                intro m hmm
                rcases List.mem_cons.1 hmm with rfl | hmm
                · exact fun j _ => rfl
                · exact (hse l m).1 (g2 m hmm).2
              have hgs : (l :: A).Sublist srt := by
                rw [← g1] at hsub
                exact ((List.sublist_append_left A R).cons_cons l).trans hsub
              have hgB := hcls l (l :: A) hgs hgl
              have hpre : Pre o c.scaldims ord L (s + k) (l :: A) := by
                refine ⟨fun b hb => hB.inner b (hgB.subset hb), ?_, fun b hb => hB.low b (hgB.subset hb),
                  hB.keys.sublist (keys_sublist hgB), hposn⟩
                intro b hb
                rcases List.mem_cons.1 hb with rfl | hb
                · exact hm
                · exact (g2 b hb).1
              obtain ⟨hC, hTop⟩ := hgen _ _ _ hpre hr
              have hC' : Correct o mem ok Rel L s (l :: A) r := by
                refine ⟨hC.has, fun p x e f hs => ?_⟩
                have hr := hC.seq p x e f hs
                obtain ⟨he, hf⟩ := seqLoops_has _ _ _ _ _ hs
                obtain ⟨a, ha, y, _, _, hat⟩ := (hC.has p x e).1 he
                obtain ⟨b, hb, z, _, _, hat'⟩ := (hC.has p x f).1 hf
                refine RL.scalEq L s k e f hrun ?_ hr
                rw [← hsc a y e hat, ← hsc b z f hat']
                exact eqtrans (eqsymm (hgl a ha)) (hgl b hb)
              rw [show l :: ls = (l :: A) ++ R by rw [List.cons_append, g1]]
              refine ⟨hC'.append hiR.1 ?_, ?_⟩
              · intro a ha b hb
                have hab : [a, b].Sublist srt := by
                  rw [← g1] at hsub
                  exact ((List.singleton_sublist.2 ha).append
                    (List.singleton_sublist.2 hb)).trans hsub
                rcases hpair a b hab with hlt' | ⟨heq', hsubB⟩
                · exact hlt a b hlt'
                · match R, g3, hb with
                  | d :: R', g3, hb =>
                    have hlb : LexEq s k (scalOf l) (scalOf b) := eqtrans (hgl a ha) heq'
                    -- the head of the rest has the same scalar vector
                    have hld : [l, d].Sublist srt := by
                      rw [← g1] at hsub
                      exact ((List.singleton_sublist.2 (List.mem_cons_self (a := l) (l := A))).append
                        (List.singleton_sublist.2 (List.mem_cons_self (a := d) (l := R')))).trans hsub
                    have hdb : d = b ∨ [d, b].Sublist srt := by
                      rcases List.mem_cons.1 hb with rfl | hb
                      · exact Or.inl rfl
                      · exact Or.inr (((List.singleton_sublist.2 hb).cons_cons d).trans hsubR)
                    have hnlt : ¬ LexLt s k (scalOf b) (scalOf d) := by
                      rcases hdb with rfl | hdb
                      · intro h
                        exact lexLt_irrefl_eq k s _ _ h (fun j _ => rfl)
                      · have := s3.sublist hdb
                        simp only [List.pairwise_cons, List.mem_singleton, forall_eq] at this
                        exact this.1
                    have hled : LexEq s k (scalOf l) (scalOf d) := by
                      rcases hpair l d hld with ⟨i, hi, hj, hlt'⟩ | ⟨h, _⟩
                      · exfalso
                        apply hnlt
                        refine ⟨i, hi, fun j hji => ?_, ?_⟩
                        · rw [← hlb j (by omega)]; exact hj j hji
                        · rw [← hlb i hi]; exact hlt'
                      · exact h
                    have hdm : more o d L (s + k) c.scaldims.length = false := by
                      rcases g3 d R' rfl with h | h
                      · exact h
                      · rw [(hse l d).2 hled] at h
                        exact absurd h (by simp)
                    obtain ⟨n1, n2⟩ := hnm d hdm
                    refine heq a b heq' hsubB n1 (Or.inr ?_)
                    rcases hdb with rfl | hdb
                    · exact n2
                    · have hdbB := hcls l [d, b] hdb (by
                        intro m hm
                        simp only [List.mem_cons, List.not_mem_nil, or_false] at hm
                        rcases hm with rfl | rfl
                        · exact hled
                        · exact hlb)
                      have := hlast n1 d b hdbB
                      omega
              · intro t ht
                rcases List.mem_append.1 ht with ht | ht
                · exact hTop t ht
                · exact hiR.2 t ht
        · rw [if_neg hm] at h
          have hm' : more o l L (s + k) c.scaldims.length = false := by simpa using hm
          obtain ⟨n1, n2⟩ := hnm l hm'
          have hA : A = [] := by
            by_contra hne
            obtain ⟨m, A', rfl⟩ := List.exists_cons_of_ne_nil hne
            obtain ⟨m1, m2⟩ := g2 m (by simp)
            have hlm : [l, m].Sublist srt := by
              rw [← g1] at hsub
              refine List.Sublist.trans ?_ hsub
              simp
            have hB' := hcls l [l, m] hlm (by
              intro q hq
              simp only [List.mem_cons, List.not_mem_nil, or_false] at hq
              rcases hq with rfl | rfl
              · exact fun j _ => rfl
              · exact (hse l q).1 m2)
            have := hlast n1 l m hB'
            unfold more at m1
            simp only [Bool.or_eq_true, decide_eq_true_eq] at m1
            omega
          subst hA
          rw [List.nil_append] at g1
          subst g1
          split at h
          · exact absurd h (by simp)
          all_goals
            rename_i hrs
            obtain rfl := Option.some.inj h
            have hiR := ih _ _ hsubR hrs
            have hlB : l ∈ B := s2.subset (hsub.subset (by simp))
            refine ⟨(Correct.leaf G (hB.inner l hlB) n2).append hiR.1 ?_, ?_⟩
            · intro a ha b hb
              rw [List.mem_singleton] at ha
              subst ha
              rcases hpair a b (((List.singleton_sublist.2 hb).cons_cons a).trans hsub) with h' | ⟨h', h''⟩
              · exact hlt a b h'
              · exact heq a b h' h'' n1 (Or.inl n2)
            · intro t ht
              rcases List.mem_cons.1 ht with rfl | ht
              · exact Or.inr ⟨hB.keys.block (t.block, o.dim t.dom) (List.mem_map_of_mem hlB),
                  hB.inner t hlB, by have := hB.low t hlB; omega⟩
              · exact hiR.2 t (by simpa using ht)
  obtain ⟨k1, k2⟩ := key _ srt T (List.Sublist.refl _) h
  exact ⟨k1.congr (fun l => s2.mem_iff), k2⟩

/-! ## The recursion -/

/-- `generateRestricted` with a replacement for `combine` that may fail. -/
def generateRestrictedC (o : DomOps D S C) (comb : List (Loop D S) → Option (List (Loop D S)))
    (c : Ctx) : Nat → Bool → List (Loop D S) → D → Nat → Nat → Option (List (Loop D S))
  | 0, _, _, _, _, _ => none
  | fuel + 1, orStop, ls, ctx, level, scalar =>
    if orStop = true ∧ 0 ≤ c.opt.stop ∧ c.opt.stop + 1 ≤ level + scalar then some (stop ls ctx)
    else if ScalarSort.levelIsConstant level scalar (isScal c.scaldims) then
      generateScalar o c (fun g sc => generateRestrictedC o comb c fuel false g ctx level sc) level
        scalar ls
    else
      generateComponentsC o comb fuel c
        (fun g d lev sc => generateRestrictedC o comb c fuel true g d lev sc) level scalar
        (projectAll o ls level)

/-- `generate` with a replacement for `combine` that may fail. -/
def generateC (o : DomOps D S C) (comb : List (Loop D S) → Option (List (Loop D S))) (c : Ctx)
    (fuel : Nat) (ls : List (Loop D S)) (ctx : D) (level scalar : Nat) : Option (List (Loop D S)) :=
  if (restrictAll o ls ctx).isEmpty then some []
  else generateRestrictedC o comb c fuel true (restrictAll o ls ctx) ctx level scalar

theorem generateRestrictedC_eq (c : Ctx) : ∀ fuel : Nat,
    generateRestrictedC o (fun l => some (combine o l)) c fuel = generateRestricted o c fuel
  | 0 => by
    funext a b d e f
    rfl
  | fuel + 1 => by
    funext orStop ls ctx L s
    rw [generateRestrictedC, generateRestricted, generateRestrictedC_eq c fuel]
    rfl

/-- With `combine` itself this is the generation of the model. -/
theorem generateC_eq (c : Ctx) (fuel : Nat) :
    generateC o (fun l => some (combine o l)) c fuel = generate o c fuel := by
  funext ls ctx L s
  unfold generateC generate
  rw [generateRestrictedC_eq]

theorem generateRestricted_correct (G : GenLaws o mem) {c : Ctx} (W : WFScal c.scaldims)
    (hopt : OptBase c.opt c.scaldims.length) (hns : c.opt.strides = true → StrideLaws o mem ok)
    {ord : Block → Block → Prop} {Rel : Nat → Nat → Inst → Inst → Prop}
    (RL : RelLaws (isScal c.scaldims) ord Rel)
    (hfree : NoLast c.opt ∨ (Free (isScal c.scaldims) Rel ∧ ∀ u, ¬ ord u u))
    {comb : List (Loop D S) → Option (List (Loop D S))} (hcomb : CombOK o c.opt comb) :
    ∀ (fuel : Nat) (orStop : Bool) (B : List (Loop D S)) (d : D) (L s : Nat) (T : List (Loop D S)),
      Pre o c.scaldims ord L s B → generateRestrictedC o comb c fuel orStop B d L s = some T →
      Correct o mem ok Rel L s B T ∧ ∀ t ∈ T, Top o L t := by
  intro fuel
  induction fuel with
  | zero => intro _ B d L s T _ h; simp [generateRestrictedC] at h
  | succ fuel ih =>
    intro orStop B d L s T hB h
    rw [generateRestrictedC] at h
    have hst := hopt.stop
    rw [if_neg (by omega)] at h
    split at h
    · rename_i hc
      exact generateScalar_correct G W RL hB.pos hc
        (fun B' s' T' hB' h' => ih false B' d L s' T' hB' h') hB h
    · rename_i hc
      have hc : levelIsConstant L s (isScal c.scaldims) = false := by simpa using hc
      have := generateComponents_correct (ok := ok) G W hopt hns RL hfree hB.pos hc hcomb
        (fun B' d' T' hB' h' => ih true B' d' (L + 1) s T' hB' h') hB h
      exact ⟨this.1, fun t ht => Or.inl (this.2 t ht)⟩

/-- The whole generation: `cloog_loop_generate` at level 0. -/
theorem generateC_correct (G : GenLaws o mem) {c : Ctx} (W : WFScal c.scaldims)
    (hopt : OptBase c.opt c.scaldims.length) (hns : c.opt.strides = true → StrideLaws o mem ok)
    {ord : Block → Block → Prop} {Rel : Nat → Nat → Inst → Inst → Prop}
    (RL : RelLaws (isScal c.scaldims) ord Rel)
    (hfree : NoLast c.opt ∨ (Free (isScal c.scaldims) Rel ∧ ∀ u, ¬ ord u u))
    {comb : List (Loop D S) → Option (List (Loop D S))} (hcomb : CombOK o c.opt comb)
    {fuel : Nat} {B T : List (Loop D S)} {ctx : D}
    (hctx : o.dim ctx = 0) (hin : ∀ b ∈ B, b.inner = [])
    (hK : KOK (isScal c.scaldims) ord (keys o B))
    (h : generateC o comb c fuel B ctx 0 0 = some T) (p : Par) (x : Pt) :
    (∀ e, hasLoops (sem o mem ok p) 0 x T e ↔
      mem ctx (p, x) ∧ ∃ b ∈ B, ∃ y, mem b.dom (p, y) ∧ At o b y e) ∧
    ∀ e f, seqLoops (sem o mem ok p) 0 x T e f → Rel 0 0 e f := by
  have hR := restrictAll_spec G ctx B (fun b _ => by omega)
  have hctx' : ∀ y, mem ctx (p, y) ↔ mem ctx (p, x) := fun y =>
    G.congr_iff (fun i hi => by omega)
  have hinst : ∀ e, InstOf o mem (restrictAll o B ctx) p 0 x e ↔
      mem ctx (p, x) ∧ ∃ b ∈ B, ∃ y, mem b.dom (p, y) ∧ At o b y e := by
    intro e
    unfold InstOf
    constructor
    · rintro ⟨r, hr, y, _, hm, hat⟩
      obtain ⟨b, hb, h1, h2, h3, h4⟩ := hR.sound r hr
      have := (h4 _).1 hm
      refine ⟨(hctx' y).1 this.1, b, hb, y, this.2, ?_, ?_⟩
      · rw [h1]; exact hat.1
      · rw [h2]; exact hat.2
    · rintro ⟨hc, b, hb, y, hm, hat⟩
      obtain ⟨r, hr, h1, h2, h3⟩ := hR.cover b hb _ hm ((hctx' y).2 hc)
      refine ⟨r, hr, y, fun i hi => by omega, h3, ?_, ?_⟩
      · rw [h1]; exact hat.1
      · rw [h2]; exact hat.2
  unfold generateC at h
  split at h
  · rename_i he
    obtain rfl := Option.some.inj h
    rw [List.isEmpty_iff] at he
    refine ⟨fun e => ?_, by simp [seqLoops]⟩
    rw [← hinst, he]
    simp [hasLoops, InstOf]
  · have hC := (generateRestricted_correct (ok := ok) G W hopt hns RL hfree hcomb fuel true _ ctx 0 0 T
      ⟨fun r hr => by
          obtain ⟨b, hb, _, _, h3, _⟩ := hR.sound r hr
          rw [← h3]; exact hin b hb,
        fun r _ => by simp [more], fun r _ => by omega, hK.sublist hR.keys, Or.inl ⟨rfl, rfl⟩⟩ h).1
    refine ⟨fun e => ?_, fun e f hs => hC.seq p x e f hs⟩
    rw [hC.has, hinst]

/-- The generation without strides. -/
theorem generate_correct (G : GenLaws o mem) {c : Ctx} (W : WFScal c.scaldims)
    (hopt : OptOK c.opt c.scaldims.length) {ord : Block → Block → Prop}
    {Rel : Nat → Nat → Inst → Inst → Prop} (RL : RelLaws (isScal c.scaldims) ord Rel)
    (hfree : NoLast c.opt ∨ (Free (isScal c.scaldims) Rel ∧ ∀ u, ¬ ord u u)) {fuel : Nat}
    {B T : List (Loop D S)} {ctx : D}
    (hctx : o.dim ctx = 0) (hin : ∀ b ∈ B, b.inner = [])
    (hK : KOK (isScal c.scaldims) ord (keys o B))
    (h : generate o c fuel B ctx 0 0 = some T) (p : Par) (x : Pt) :
    (∀ e, hasLoops (sem o mem ok p) 0 x T e ↔
      mem ctx (p, x) ∧ ∃ b ∈ B, ∃ y, mem b.dom (p, y) ∧ At o b y e) ∧
    ∀ e f, seqLoops (sem o mem ok p) 0 x T e f → Rel 0 0 e f := by
  rw [← generateC_eq] at h
  refine generateC_correct G W hopt.toOptBase (fun hs => ?_) RL hfree ?_ hctx hin hK h p x
  · rw [hopt.strides] at hs
    exact absurd hs (by simp)
  · intro T T' e hT
    refine ⟨(Option.some.inj e).symm, ?_⟩
    have hT := hT hopt.strides
    cases T with
    | nil => trivial
    | cons a ls =>
      show SameStrides o a.dom a.stride ls
      rw [hT a (by simp)]
      exact sameStrides_none ls a.dom (fun t ht => hT t (by simp [ht]))

end Verif.Gen
