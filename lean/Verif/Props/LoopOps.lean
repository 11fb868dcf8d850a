import Verif.Lemmas.GenMain
import Verif.Lemmas.BoxDom

/-!
# C23, C27 and C28: unrolling, merging, per-statement levels
-/

namespace Verif.Props.LoopOps

open Verif.Loop Verif.Gen Verif.Props.Separate

variable {D S C Par : Type} {o : DomOps D S C} {mem : D → Par × Pt → Prop} {ok : Nat → S → Par × Pt → Prop}

/-! ## C23: unrolling -/

theorem visits_below {m : Sem D S} {L : Nat} {x y : Pt} {d : D} {st : Option S}
    (h : Visits m (L + 1) x d st y) : ∀ i, i < L → y i = x i := by
  intro i hi
  unfold Visits at h
  split at h
  · obtain ⟨⟨v, rfl⟩, _⟩ := h
    exact setAt_other (by omega)
  · rw [h.1]

/-- Restriction to a domain of the outer dimensions that holds at the current point. -/
theorem restrict_same (G : GenLaws o mem) {l : Loop D S} {c : D} {L : Nat} (hc : o.dim c ≤ L)
    (hd : o.dim c ≤ o.dim l.dom) (hs : l.stride = none) {p : Par} {x : Pt} (hx : mem c (p, x)) :
    (∀ e, (∃ r, restrict o l c = some r ∧ hasLoop (sem o mem ok p) (L + 1) x r e) ↔
      hasLoop (sem o mem ok p) (L + 1) x l e) ∧
    ∀ e f, (∃ r, restrict o l c = some r ∧ seqLoop (sem o mem ok p) (L + 1) x r e f) ↔
      seqLoop (sem o mem ok p) (L + 1) x l e f := by
  obtain ⟨d, ot, st, b, inner⟩ := l
  simp only [Loop.dom_mk, Loop.stride_mk] at hd hs
  subst hs
  have hin : ∀ y, Visits (sem o mem ok p) (L + 1) x d none y → mem c (p, y) := fun y hy =>
    G.congr _ _ _ _ (fun i hi => (visits_below hy i (by omega)).symm) hx
  cases hr : restrict o (Loop.mk d ot none b inner) c with
  | none =>
    have hno : ∀ y, ¬ Visits (sem o mem ok p) (L + 1) x d none y := fun y hy =>
      restrict_none G (by simpa using hd) hr (p, y) (hin y hy) (visits_mem hy)
    refine ⟨fun e => ?_, fun e f => ?_⟩
    · simp only [reduceCtorEq, false_and, exists_false, false_iff, hasLoop_mk]
      rintro ⟨y, hy, _⟩
      exact hno y hy
    · simp only [reduceCtorEq, false_and, exists_false, false_iff, seqLoop]
      rintro (⟨y, hy, _⟩ | ⟨y, z, hy, _⟩) <;> exact hno y hy
  | some r =>
    obtain ⟨d', ot', st', b', inner'⟩ := r
    obtain ⟨h1, h2, h3, h4, h5⟩ := restrict_spec G (by simpa using hd) hr
    simp only [Loop.dom_mk, Loop.stride_mk, Loop.block_mk, Loop.inner_mk] at h1 h2 h3 h4 h5
    subst h1 h2 h3
    have hv : ∀ y, Visits (sem o mem ok p) (L + 1) x d' none y ↔
        Visits (sem o mem ok p) (L + 1) x d none y := by
      intro y
      have hdm : (sem o mem ok p).dim d' = (sem o mem ok p).dim d := h4
      have hm : (sem o mem ok p).mem d' y ↔ mem c (p, y) ∧ (sem o mem ok p).mem d y := h5 (p, y)
      constructor
      · intro hy
        unfold Visits at hy ⊢
        rw [hdm] at hy
        split at hy
        · rename_i hc'
          rw [if_pos hc']
          exact ⟨hy.1, (hm.1 hy.2.1).2, hy.2.2⟩
        · rename_i hc'
          rw [if_neg hc']
          exact ⟨hy.1, (hm.1 hy.2).2⟩
      · intro hy
        have hcy := hin y hy
        unfold Visits at hy ⊢
        rw [hdm]
        split at hy
        · rename_i hc'
          rw [if_pos hc']
          exact ⟨hy.1, hm.2 ⟨hcy, hy.2.1⟩, hy.2.2⟩
        · rename_i hc'
          rw [if_neg hc']
          exact ⟨hy.1, hm.2 ⟨hcy, hy.2⟩⟩
    have hb : ∀ y e, BlockAt (sem o mem ok p) d' b' y e ↔ BlockAt (sem o mem ok p) d b' y e := by
      intro y e
      have hdm : (sem o mem ok p).dim d' = (sem o mem ok p).dim d := h4
      unfold BlockAt
      rw [hdm]
    refine ⟨fun e => ?_, fun e f => ?_⟩
    · simp only [Option.some.injEq, exists_eq_left', hasLoop_mk, hv, hb]
    · simp only [Option.some.injEq, exists_eq_left', seqLoop, hv, hb]

theorem restrictAll_same (G : GenLaws o mem) {c : D} {L : Nat} (hc : o.dim c ≤ L) {p : Par} {x : Pt}
    (hx : mem c (p, x)) : ∀ (ls : List (Loop D S)),
    (∀ l ∈ ls, o.dim c ≤ o.dim l.dom ∧ l.stride = none) →
    (∀ e, hasLoops (sem o mem ok p) (L + 1) x (restrictAll o ls c) e ↔
      hasLoops (sem o mem ok p) (L + 1) x ls e) ∧
    ∀ e f, seqLoops (sem o mem ok p) (L + 1) x (restrictAll o ls c) e f ↔
      seqLoops (sem o mem ok p) (L + 1) x ls e f
  | [], _ => by simp [restrictAll]
  | l :: ls, h => by
    obtain ⟨i1, i2⟩ := restrictAll_same G hc hx ls (fun l hl => h l (by simp [hl]))
    obtain ⟨j1, j2⟩ := restrict_same (ok := ok) G hc (h l (by simp)).1 (h l (by simp)).2 hx
    cases hr : restrict o l c with
    | none =>
      have e : restrictAll o (l :: ls) c = restrictAll o ls c := by simp [restrictAll, hr]
      simp only [hr, reduceCtorEq, false_and, exists_false, false_iff] at j1 j2
      rw [e]
      refine ⟨fun e => ?_, fun e f => ?_⟩
      · rw [hasLoops, i1]; simp [j1]
      · rw [seqLoops, i2]; simp [j1, j2]
    | some r =>
      have e : restrictAll o (l :: ls) c = r :: restrictAll o ls c := by simp [restrictAll, hr]
      simp only [hr, Option.some.injEq, exists_eq_left'] at j1 j2
      rw [e]
      refine ⟨fun e => ?_, fun e f => ?_⟩
      · rw [hasLoops, hasLoops, i1, j1]
      · rw [seqLoops, seqLoops, i1, i2, j1, j2]

/-- Two positions of a list of loops made from increasing numbers. -/
theorem sublist_filterMap_range {α : Type} {f : Nat → Option α} {a b : α} : ∀ (n : Nat),
    [a, b].Sublist ((List.range n).filterMap f) ↔
      ∃ i j, i < j ∧ j < n ∧ f i = some a ∧ f j = some b := by
  intro n
  constructor
  · intro h
    have hp : ((List.range n).filterMap (fun i => (f i).map (fun a => (i, a)))).Pairwise
        (fun u v => u.1 < v.1) := by
      rw [List.pairwise_filterMap]
      refine (List.pairwise_lt_range (n := n)).imp ?_
      intro i j hij u hu v hv
      rw [Option.map_eq_some_iff] at hu hv
      obtain ⟨_, _, rfl⟩ := hu
      obtain ⟨_, _, rfl⟩ := hv
      exact hij
    have e : (List.range n).filterMap f =
        ((List.range n).filterMap (fun i => (f i).map (fun a => (i, a)))).map Prod.snd := by
      rw [List.map_filterMap]
      congr 1
      funext i
      cases f i <;> rfl
    rw [e, List.sublist_map_iff] at h
    obtain ⟨l', hl', h'⟩ := h
    match l', h' with
    | [u, v], h' =>
      simp only [List.map_cons, List.map_nil, List.cons.injEq, and_true] at h'
      have huv : u.1 < v.1 := by simpa using hp.sublist hl'
      have hu := hl'.subset (show u ∈ [u, v] by simp)
      have hv := hl'.subset (show v ∈ [u, v] by simp)
      rw [List.mem_filterMap] at hu hv
      obtain ⟨i, hi, hu⟩ := hu
      obtain ⟨j, hj, hv⟩ := hv
      rw [Option.map_eq_some_iff] at hu hv
      obtain ⟨a', ha, rfl⟩ := hu
      obtain ⟨b', hb, rfl⟩ := hv
      simp only at h'
      exact ⟨i, j, huv, List.mem_range.1 hj, by rw [ha, h'.1], by rw [hb, h'.2]⟩
    | [], h' => simp at h'
    | [_], h' => simp at h'
    | _ :: _ :: _ :: _, h' => simp at h'
  · rintro ⟨i, j, hij, hj, ha, hb⟩
    have hs : [i, j].Sublist (List.range n) := by
      have : List.range n = List.range j ++ (List.range n).drop j := by
        have ht : (List.range n).take j = List.range j := by
          rw [List.take_range, Nat.min_eq_left (by omega)]
        rw [← ht, List.take_append_drop]
      rw [this, two_sublist_append]
      refine Or.inr (Or.inl ⟨List.mem_range.2 hij, ?_⟩)
      rw [List.mem_iff_getElem]
      exact ⟨0, by simp; omega, by simp⟩
    have := hs.filterMap f
    simpa [ha, hb] using this

/-- **C23**.  Unrolling a loop keeps what is executed and its order; when the loop is unrolled, the
loops that replace it have at most one iteration each, for increasing values of the iterator, and each
of them has something to execute for some value of the parameters. -/
theorem C23_unroll (G : GenLaws o mem) {L : Nat} (h0 : 0 < L) {l : Loop D S}
    (hd : o.dim l.dom = L) (hcv : o.isConvex l.dom = true) (hb : l.block = none) (hs : l.stride = none)
    (hin : ∀ i ∈ l.inner, L ≤ o.dim i.dom ∧ i.stride = none) :
    (∀ p x e, hasLoops (sem o mem ok p) L x (unrollOne o L l) e ↔ hasLoop (sem o mem ok p) L x l e) ∧
    (∀ p x e f, seqLoops (sem o mem ok p) L x (unrollOne o L l) e f ↔
      seqLoop (sem o mem ok p) L x l e f) ∧
    (unrollOne o L l = [l] ∨
      ((unrollOne o L l).Pairwise (fun a b => ∀ p x v w, mem a.dom (p, setAt x L v) →
        mem b.dom (p, setAt x L w) → v < w) ∧
      (∀ a ∈ unrollOne o L l, a.inner ≠ [] ∧ ∀ p x v w, mem a.dom (p, setAt x L v) →
        mem a.dom (p, setAt x L w) → v = w))) := by
  cases hun : o.canUnroll l.dom L with
  | none =>
    have e : unrollOne o L l = [l] := by simp [unrollOne, hun]
    rw [e]
    refine ⟨fun p x e => ?_, fun p x e f => ?_, Or.inl rfl⟩
    · simp [hasLoops]
    · simp [seqLoops, hasLoops]
  | some nc =>
    obtain ⟨n, c⟩ := nc
    obtain ⟨lo, l1, l2, l3⟩ := G.unroll _ _ _ _ h0 hcv hd hun
    let F : Nat → Option (Loop D S) := fun i =>
      if (restrictAll o l.inner (o.fixedOffset l.dom L c i)).isEmpty then none
      else some (.mk (o.fixedOffset l.dom L c i) true none none
        (restrictAll o l.inner (o.fixedOffset l.dom L c i)))
    have e : unrollOne o L l = (List.range n.toNat).filterMap F := by simp [unrollOne, hun, F]
    have hF : ∀ i a, F i = some a → Sh o L a ∧ a.dom = o.fixedOffset l.dom L c i ∧
        a.inner = restrictAll o l.inner (o.fixedOffset l.dom L c i) ∧ a.inner ≠ [] := by
      intro i a h
      simp only [F] at h
      split at h
      · exact absurd h (by simp)
      · rename_i hne
        obtain rfl := Option.some.inj h
        exact ⟨⟨by simp [G.dim_fixedOffset, hd], rfl, rfl⟩, rfl, rfl, by simpa using hne⟩
    have hlo : ∀ p x v, lo p (setAt x L v) = lo p x := fun p x v =>
      l1 p _ _ (agree_setAt x L v h0).symm
    have hmem : ∀ (i : Nat) p x v, mem (o.fixedOffset l.dom L c i) (p, setAt x L v) ↔
        mem l.dom (p, setAt x L v) ∧ v = lo p x + i := by
      intro i p x v
      rw [l3, hlo, setAt_same]
    have hrange : ∀ p x v, mem l.dom (p, setAt x L v) → ∃ i : Nat, i < n.toNat ∧ v = lo p x + i := by
      intro p x v h
      have := l2 p _ h
      rw [hlo, setAt_same] at this
      exact ⟨(v - lo p x).toNat, by omega, by omega⟩
    have hsame := fun (i : Nat) (p : Par) (y : Pt) (h : mem (o.fixedOffset l.dom L c i) (p, y)) =>
      restrictAll_same (ok := ok) G (c := o.fixedOffset l.dom L c i) (L := L)
        (by rw [G.dim_fixedOffset, hd]) h l.inner
        (fun j hj => ⟨by rw [G.dim_fixedOffset, hd]; exact (hin j hj).1, (hin j hj).2⟩)
    have hl : Sh o L l := ⟨hd, hb, hs⟩
    -- what is executed at one value
    have hval : ∀ p x v e, mem l.dom (p, setAt x L v) →
        hasLoops (sem o mem ok p) (L + 1) (setAt x L v) l.inner e →
        ∃ i a, i < n.toNat ∧ F i = some a ∧ v = lo p x + (i : Int) ∧ mem a.dom (p, setAt x L v) ∧
          hasLoops (sem o mem ok p) (L + 1) (setAt x L v) a.inner e := by
      intro p x v e hm he
      obtain ⟨i, hi, hv⟩ := hrange p x v hm
      have hmi : mem (o.fixedOffset l.dom L c i) (p, setAt x L v) := (hmem i p x v).2 ⟨hm, hv⟩
      have he' := ((hsame i p _ hmi).1 e).2 he
      have hne : (restrictAll o l.inner (o.fixedOffset l.dom L c i)).isEmpty = false := by
        cases hr : restrictAll o l.inner (o.fixedOffset l.dom L c i) with
        | nil => rw [hr] at he'; simp [hasLoops] at he'
        | cons => rfl
      exact ⟨i, Loop.mk (o.fixedOffset l.dom L c i) true none none
        (restrictAll o l.inner (o.fixedOffset l.dom L c i)), hi, by simp only [F, hne]; rfl, hv, hmi, he'⟩
    have hback : ∀ p x v e i a, F i = some a → mem a.dom (p, setAt x L v) →
        hasLoops (sem o mem ok p) (L + 1) (setAt x L v) a.inner e →
        v = lo p x + (i : Int) ∧ mem l.dom (p, setAt x L v) ∧
          hasLoops (sem o mem ok p) (L + 1) (setAt x L v) l.inner e := by
      intro p x v e i a ha hm he
      obtain ⟨_, h2, h3, _⟩ := hF i a ha
      rw [h2] at hm
      rw [h3] at he
      exact ⟨((hmem i p x v).1 hm).2, ((hmem i p x v).1 hm).1, ((hsame i p _ hm).1 e).1 he⟩
    have hL0 : ¬ (L = 0) := by omega
    have has1 : ∀ p x a e, Sh o L a → (hasLoop (sem o mem ok p) L x a e ↔ ∃ v,
        mem a.dom (p, setAt x L v) ∧ hasLoops (sem o mem ok p) (L + 1) (setAt x L v) a.inner e) := by
      intro p x a e ha
      rw [hasLoop_sh ha]
      constructor
      · rintro ⟨y, ⟨_, v, rfl⟩ | ⟨h, _⟩, h2⟩
        · exact ⟨v, h2⟩
        · exact absurd h hL0
      · rintro ⟨v, h⟩
        exact ⟨_, Or.inl ⟨h0, v, rfl⟩, h⟩
    refine ⟨fun p x e' => ?_, fun p x e' f => ?_, Or.inr ⟨?_, ?_⟩⟩
    · rw [e, hasLoops_iff, has1 p x l e' hl]
      constructor
      · rintro ⟨a, ha, h⟩
        obtain ⟨i, _, hi⟩ := List.mem_filterMap.1 ha
        obtain ⟨v, hm, he⟩ := (has1 p x a e' (hF i a hi).1).1 h
        exact ⟨v, (hback p x v e' i a hi hm he).2⟩
      · rintro ⟨v, hm, he⟩
        obtain ⟨i, a, hi, ha, _, hma, hea⟩ := hval p x v e' hm he
        exact ⟨a, List.mem_filterMap.2 ⟨i, List.mem_range.2 hi, ha⟩,
          (has1 p x a e' (hF i a ha).1).2 ⟨v, hma, hea⟩⟩
    · rw [e, seqLoops_iff, seqLoop_sh hl]
      constructor
      · rintro (⟨a, ha, h⟩ | ⟨a, b, hab, ha, hb'⟩)
        · obtain ⟨i, _, hi⟩ := List.mem_filterMap.1 ha
          obtain ⟨hsh, h2, h3, _⟩ := hF i a hi
          rw [seqLoop_sh hsh] at h
          rcases h with ⟨y, hy, hm, h⟩ | ⟨_, v, w, hvw, hmv, hmw, _⟩
          · left
            rcases hy with ⟨_, v, rfl⟩ | ⟨hz, _⟩
            · rw [h2] at hm
              rw [h3] at h
              exact ⟨_, Or.inl ⟨h0, v, rfl⟩, ((hmem i p x v).1 hm).1, ((hsame i p _ hm).2 e' f).1 h⟩
            · exact absurd hz hL0
          · rw [h2] at hmv hmw
            have := ((hmem i p x v).1 hmv).2
            have := ((hmem i p x w).1 hmw).2
            omega
        · obtain ⟨i, j, hij, _, hi, hj⟩ := (sublist_filterMap_range _).1 hab
          obtain ⟨v, hmv, hev⟩ := (has1 p x a e' (hF i a hi).1).1 ha
          obtain ⟨w, hmw, hew⟩ := (has1 p x b f (hF j b hj).1).1 hb'
          obtain ⟨e1, e2, e3⟩ := hback p x v e' i a hi hmv hev
          obtain ⟨f1, f2, f3⟩ := hback p x w f j b hj hmw hew
          exact Or.inr ⟨h0, v, w, by omega, e2, f2, e3, f3⟩
      · rintro (⟨y, hy, hm, h⟩ | ⟨_, v, w, hvw, hmv, hmw, hev, hew⟩)
        · left
          rcases hy with ⟨_, v, rfl⟩ | ⟨hz, _⟩
          · obtain ⟨i, a, hi, ha, _, hma, _⟩ :=
              hval p x v e' hm (seqLoops_has _ _ _ _ _ h).1
            obtain ⟨hsh, h2, h3, _⟩ := hF i a ha
            refine ⟨a, List.mem_filterMap.2 ⟨i, List.mem_range.2 hi, ha⟩, ?_⟩
            rw [seqLoop_sh hsh]
            refine Or.inl ⟨_, Or.inl ⟨h0, v, rfl⟩, hma, ?_⟩
            rw [h2] at hma
            rw [h3]
            exact ((hsame i p _ hma).2 e' f).2 h
          · exact absurd hz hL0
        · right
          obtain ⟨i, a, hi, ha, iv, hma, hea⟩ := hval p x v e' hmv hev
          obtain ⟨j, b, hj, hb', jv, hmb, heb⟩ := hval p x w f hmw hew
          exact ⟨a, b, (sublist_filterMap_range _).2 ⟨i, j, by omega, hj, ha, hb'⟩,
            (has1 p x a e' (hF i a ha).1).2 ⟨v, hma, hea⟩, (has1 p x b f (hF j b hb').1).2 ⟨w, hmb, heb⟩⟩
    · rw [e, List.pairwise_iff_forall_sublist]
      intro a b hab p x v w hv hw
      obtain ⟨i, j, hij, _, hi, hj⟩ := (sublist_filterMap_range _).1 hab
      rw [(hF i a hi).2.1, hmem] at hv
      rw [(hF j b hj).2.1, hmem] at hw
      omega
    · intro a ha
      rw [e] at ha
      obtain ⟨i, _, hi⟩ := List.mem_filterMap.1 ha
      refine ⟨(hF i a hi).2.2.2, fun p x v w hv hw => ?_⟩
      rw [(hF i a hi).2.1, hmem] at hv hw
      omega

/-- A loop with two statements, for the values 1 to 3. -/
def exLoop : Loop BoxDom.BD (Int × Int) :=
  .mk ⟨1, [[[1], [2], [3]]]⟩ false none none
    [.mk ⟨1, [[[1], [2], [3]]]⟩ false none (some ⟨[1], []⟩) [],
     .mk ⟨2, [[[3, 1], [3, 2]]]⟩ false none (some ⟨[2], []⟩) []]

example : (unrollOne BoxDom.ops 1 exLoop).length = 3 ∧
    (∀ x e, hasLoops (sem BoxDom.ops BoxDom.mem (fun _ _ _ => True) ()) 1 x
      (unrollOne BoxDom.ops 1 exLoop) e ↔
      hasLoop (sem BoxDom.ops BoxDom.mem (fun _ _ _ => True) ()) 1 x exLoop e) :=
  ⟨by decide +kernel, fun x e => (C23_unroll (L := 1) (l := exLoop) BoxDom.laws (by decide) rfl (by decide) rfl rfl
    (by decide)).1 () x e⟩

/-! ## C27: merging -/

open Classical in
/-- Specification: the statements (block and dimension) of a list whose domains contain a point, in
order. -/
noncomputable def active (o : DomOps D S C) (mem : D → Par × Pt → Prop) (B : List (Loop D S))
    (px : Par × Pt) : List (Option Block × Nat) :=
  (B.filter (fun b => decide (mem b.dom px))).map (fun b => (b.block, o.dim b.dom))

open Classical in
/-- Specification: the statements that a list of loops around statements executes at a point, in
order. -/
noncomputable def run (o : DomOps D S C) (mem : D → Par × Pt → Prop) (R : List (Loop D S))
    (px : Par × Pt) : List (Option Block × Nat) :=
  R.flatMap (fun r => if mem r.dom px then active o mem r.inner px else [])

open Classical in
theorem run_one {R : List (Loop D S)} {px : Par × Pt} (hd : R.Pairwise (Disj mem)) {r : Loop D S}
    (hr : r ∈ R) (hx : mem r.dom px) : run o mem R px = active o mem r.inner px := by
  have hnil : ∀ R : List (Loop D S), (∀ q ∈ R, ¬ mem q.dom px) → run o mem R px = [] := by
    intro R h
    unfold run
    rw [List.flatMap_eq_nil_iff]
    intro q hq
    rw [if_neg (h q hq)]
  induction R with
  | nil => simp at hr
  | cons a R ih =>
    rw [List.pairwise_cons] at hd
    have e : run o mem (a :: R) px =
        (if mem a.dom px then active o mem a.inner px else []) ++ run o mem R px := by
      simp [run]
    rw [e]
    rcases List.mem_cons.1 hr with rfl | hr
    · rw [if_pos hx, hnil R (fun q hq hqx => hd.1 q hq px ⟨hx, hqx⟩), List.append_nil]
    · rw [if_neg (fun h => hd.1 r hr px ⟨h, hx⟩), List.nil_append, ih hd.2 hr]

theorem restrictAll_active (G : GenLaws o mem) {c : D} {px : Par × Pt} (hx : mem c px) :
    ∀ (B : List (Loop D S)), (∀ b ∈ B, o.dim c ≤ o.dim b.dom) →
    active o mem (restrictAll o B c) px = active o mem B px
  | [], _ => by simp [restrictAll]
  | b :: B, hd => by
    have ih := restrictAll_active G hx B (fun b hb => hd b (by simp [hb]))
    have hb := hd b (by simp)
    cases hr : restrict o b c with
    | none =>
      have e : restrictAll o (b :: B) c = restrictAll o B c := by simp [restrictAll, hr]
      rw [e, ih]
      unfold active
      rw [List.filter_cons_of_neg]
      simpa using fun h => restrict_none G hb hr px hx h
    | some r =>
      have e : restrictAll o (b :: B) c = r :: restrictAll o B c := by simp [restrictAll, hr]
      obtain ⟨h1, _, _, h4, h5⟩ := restrict_spec G hb hr
      rw [e]
      unfold active at ih ⊢
      by_cases hbx : mem b.dom px
      · rw [List.filter_cons_of_pos (by simpa using (h5 px).2 ⟨hx, hbx⟩),
          List.filter_cons_of_pos (by simpa using hbx), List.map_cons, List.map_cons, ih,
          h1, h4]
      · rw [List.filter_cons_of_neg (by simpa using fun h => hbx ((h5 px).1 h).2),
          List.filter_cons_of_neg (by simpa using hbx), ih]

theorem mergeSplit_inner {opt : Options} {t : D} {inner : List (Loop D S)} :
    ∀ (fuel : Nat) (s : D) (res out : List (Loop D S)), (∀ r ∈ res, r.inner = inner) →
    mergeSplit o opt t inner fuel s res = some out → ∀ r ∈ out, r.inner = inner
  | 0, _, _, _, _, h => by simp [mergeSplit] at h
  | fuel + 1, s, res, out, hres, h => by
    rw [mergeSplit] at h
    split at h
    · dsimp only at h
      split at h
      · obtain rfl := Option.some.inj h
        exact hres
      · obtain rfl := Option.some.inj h
        intro r hr
        rcases List.mem_cons.1 hr with rfl | hr
        · rfl
        · exact hres r hr
    · refine mergeSplit_inner fuel _ _ out ?_ h
      intro r hr
      split at hr
      · exact hres r hr
      · rcases List.mem_cons.1 hr with rfl | hr
        · rfl
        · exact hres r hr

theorem merge_inner {L fuel : Nat} {opt : Options} {B Q : List (Loop D S)}
    (h : merge o fuel L opt (projectAll o B L) = some Q) : ∀ q ∈ Q, q.inner = B := by
  cases e : projectAll o B L with
  | nil =>
    rw [e, merge] at h
    obtain rfl := Option.some.inj h
    simp
  | cons l ls =>
    have hB := flatMap_inner_projectAll (o := o) B L
    rw [e] at hB
    rw [e, merge] at h
    split at h
    · rename_i hcv
      obtain rfl := Option.some.inj h
      have hls : ls = [] := by simpa using hcv.1
      subst hls
      intro q hq
      rw [List.mem_singleton] at hq
      subst hq
      simpa using hB
    · dsimp only at h
      rw [hB] at h
      split at h
      · exact mergeSplit_inner _ _ _ _ (by simp) h
      · obtain rfl := Option.some.inj h
        intro q hq
        rw [List.mem_singleton] at hq
        subst hq
        rfl

theorem constant_inner {L : Nat} {B : List (Loop D S)} :
    ∀ q ∈ constant o (projectAll o B L), q.inner = B := by
  have hB := flatMap_inner_projectAll (o := o) B L
  cases e : projectAll o B L with
  | nil => simp [constant]
  | cons l ls =>
    rw [e] at hB
    intro q hq
    rw [constant, List.mem_singleton] at hq
    subst hq
    exact hB

/-- **C27**.  When the projections of the statements `B` on level `L` are merged (or, if they all have
the same fixed value, put together), the loops cover all of them, do not overlap, and after the
restriction of the inner loops execute at every point exactly the statements whose domains contain the
point, once each and in the given order. -/
theorem C27_merge (G : GenLaws o mem) {L fuel : Nat} {opt : Options} {B Q : List (Loop D S)}
    (hB : ∀ b ∈ B, L ≤ o.dim b.dom)
    (h : merge o fuel L opt (projectAll o B L) = some Q ∨ Q = constant o (projectAll o B L)) :
    (∀ b ∈ B, ∀ px, mem b.dom px → ∃ q ∈ Q, mem q.dom px) ∧
    Q.Pairwise (fun a b => ∀ px, ¬ (mem a.dom px ∧ mem b.dom px)) ∧
    (∀ q ∈ Q, q.inner = B) ∧
    ∀ px, run o mem (restrictInner o Q) px = active o mem B px := by
  have hP : Pieces o mem L B Q := by
    rcases h with h | rfl
    · exact merge_pieces G hB h
    · exact constant_pieces G hB
  have hI : ∀ q ∈ Q, q.inner = B := by
    rcases h with h | rfl
    · exact merge_inner h
    · exact constant_inner
  refine ⟨hP.cover, hP.disj, hI, fun px => ?_⟩
  have hres : ∀ q ∈ Q, mem q.dom px →
      active o mem (restrictAll o q.inner q.dom) px = active o mem B px := by
    intro q hq hx
    rw [restrictAll_active G hx, hI q hq]
    rw [hI q hq]
    intro b hb
    rw [(hP.shape q hq).1]
    exact hB b hb
  have hR : restrictInner o Q = (Q.filter (fun q => !(restrictAll o q.inner q.dom).isEmpty)).map
      (fun q => q.setInner (restrictAll o q.inner q.dom)) := by
    unfold restrictInner
    clear hres hP hI h
    induction Q with
    | nil => rfl
    | cons q Q ih =>
      cases hr : restrictAll o q.inner q.dom with
      | nil => rw [List.filterMap_cons, ih]; simp [hr]
      | cons a as => rw [List.filterMap_cons, ih]; simp [hr]
  have hdisj : (restrictInner o Q).Pairwise (Disj mem) := by
    rw [hR, List.pairwise_map]
    exact (hP.disj.filter _).imp (fun h => h)
  by_cases hx : ∃ r ∈ restrictInner o Q, mem r.dom px
  · obtain ⟨r, hr, hrx⟩ := hx
    rw [run_one hdisj hr hrx]
    rw [hR] at hr
    obtain ⟨q, hq, rfl⟩ := List.mem_map.1 hr
    exact hres q (List.mem_filter.1 hq).1 hrx
  · have h1 : run o mem (restrictInner o Q) px = [] := by
      unfold run
      rw [List.flatMap_eq_nil_iff]
      intro r hr
      rw [if_neg (fun h => hx ⟨r, hr, h⟩)]
    rw [h1]
    by_contra hne
    have hex : ∃ b ∈ B, mem b.dom px := by
      by_contra hn
      push Not at hn
      apply hne
      unfold active
      rw [List.filter_eq_nil_iff.2 (fun b hb => by simpa using hn b hb)]
      rfl
    obtain ⟨b, hb, hbx⟩ := hex
    obtain ⟨q, hq, hqx⟩ := hP.cover b hb px hbx
    have hact := hres q hq hqx
    refine hx ⟨q.setInner (restrictAll o q.inner q.dom), ?_, hqx⟩
    rw [hR]
    refine List.mem_map_of_mem (List.mem_filter.2 ⟨hq, ?_⟩)
    cases hr : restrictAll o q.inner q.dom with
    | nil =>
      rw [hr] at hact
      exact absurd (by rw [← hact]; rfl) hne
    | cons => rfl

/-- Two statements with overlapping projections on the first level. -/
def exStmts : List (Loop BoxDom.BD (Int × Int)) :=
  [.mk ⟨1, [[[1], [2]]]⟩ false none (some ⟨[1], []⟩) [],
   .mk ⟨2, [[[2, 1], [3, 2]]]⟩ false none (some ⟨[2], []⟩) []]

example : ∃ Q, merge BoxDom.ops 10 1 {} (projectAll BoxDom.ops exStmts 1) = some Q ∧ Q.length = 1 ∧
    ∀ px, run BoxDom.ops BoxDom.mem (restrictInner BoxDom.ops Q) px =
      active BoxDom.ops BoxDom.mem exStmts px := by
  have h : ((merge BoxDom.ops 10 1 {} (projectAll BoxDom.ops exStmts 1)).map List.length) = some 1 := by
    decide +kernel
  obtain ⟨Q, hQ, hl⟩ := Option.map_eq_some_iff.1 h
  exact ⟨Q, hQ, hl, (C27_merge BoxDom.laws (by decide) (Or.inl hQ)).2.2.2⟩

/-! ## C28: per-statement levels -/

mutual
/-- Specification: the numbers of the statements in a loop. -/
def stmtsLoop : Loop D S → List Nat
  | .mk _ _ _ b inner => (match b with | some b => b.stmts | none => []) ++ stmts inner
/-- Specification: the numbers of the statements in a list of loops. -/
def stmts : List (Loop D S) → List Nat
  | [] => []
  | l :: ls => stmtsLoop l ++ stmts ls
end

theorem statementGetFl_some {opt : Options} {fs ls : List Int} (hf : opt.fs = some fs)
    (hl : opt.ls = some ls) : ∀ (ns : List Nat) (a b : Int),
    statementGetFl opt ns (a, b) = (ns.foldl (fun m n => max (fs.getD (n - 1) 0) m) a,
      ns.foldl (fun m n => max (ls.getD (n - 1) 0) m) b)
  | [], a, b => rfl
  | n :: ns, a, b => by
    rw [statementGetFl]
    simp only [hf, hl]
    rw [statementGetFl_some hf hl ns]
    rfl

theorem loopsGetFl_some {opt : Options} {fs ls : List Int} (hf : opt.fs = some fs)
    (hl : opt.ls = some ls) (T : List (Loop D S)) : ∀ (a b : Int),
    loopsGetFl opt T (a, b) = ((stmts T).foldl (fun m n => max (fs.getD (n - 1) 0) m) a,
      (stmts T).foldl (fun m n => max (ls.getD (n - 1) 0) m) b) := by
  refine Loop.rec_1 (D := D) (S := S)
    (motive_1 := fun l => ∀ (a b : Int), loopGetFl opt l (a, b) =
      ((stmtsLoop l).foldl (fun m n => max (fs.getD (n - 1) 0) m) a,
      (stmtsLoop l).foldl (fun m n => max (ls.getD (n - 1) 0) m) b))
    (motive_2 := fun T => ∀ (a b : Int), loopsGetFl opt T (a, b) =
      ((stmts T).foldl (fun m n => max (fs.getD (n - 1) 0) m) a,
      (stmts T).foldl (fun m n => max (ls.getD (n - 1) 0) m) b)) ?_ ?_ ?_ T
  · intro d ot st bl inner ih a b
    unfold loopGetFl stmtsLoop
    cases bl with
    | none => simpa using ih a b
    | some bl => simp only [statementGetFl_some hf hl, ih, List.foldl_append]
  · intro a b
    rfl
  · intro l ls' ih1 ih2 a b
    rw [loopsGetFl, ih1, ih2, stmts, List.foldl_append, List.foldl_append]

theorem foldl_max {v : Nat → Int} : ∀ (ns : List Nat) (a m : Int), a ≤ m → (∀ n ∈ ns, v n ≤ m) →
    (m = a ∨ ∃ n ∈ ns, v n = m) → ns.foldl (fun m n => max (v n) m) a = m
  | [], a, m, _, _, h => by
    rcases h with h | ⟨_, hn, _⟩
    · simp [h]
    · simp at hn
  | n :: ns, a, m, h1, h2, h3 => by
    rw [List.foldl_cons]
    have hn := h2 n (by simp)
    refine foldl_max ns _ m (by omega) (fun k hk => h2 k (by simp [hk])) ?_
    rcases h3 with h | ⟨k, hk, h⟩
    · left; omega
    · rcases List.mem_cons.1 hk with rfl | hk
      · left; omega
      · exact Or.inr ⟨k, hk, h⟩

/-- Specification: `m` is the largest of -1 and the entries of the array `v` for the statements
`ns`, which are numbered from 1. -/
def IsMax (v : List Int) (ns : List Nat) (m : Int) : Prop :=
  -1 ≤ m ∧ (∀ n ∈ ns, v.getD (n - 1) 0 ≤ m) ∧ (m = -1 ∨ ∃ n ∈ ns, v.getD (n - 1) 0 = m)

theorem isMax_exists (v : List Int) : ∀ (ns : List Nat), ∃ m, IsMax v ns m
  | [] => ⟨-1, by simp [IsMax]⟩
  | n :: ns => by
    obtain ⟨m, h1, h2, h3⟩ := isMax_exists v ns
    refine ⟨max (v.getD (n - 1) 0) m, by omega, ?_, ?_⟩
    · intro k hk
      rcases List.mem_cons.1 hk with rfl | hk
      · omega
      · have := h2 k hk; omega
    · rcases Int.le_total (v.getD (n - 1) 0) m with h | h
      · rw [Int.max_eq_right h]
        rcases h3 with h3 | ⟨k, hk, h3⟩
        · exact Or.inl h3
        · exact Or.inr ⟨k, by simp [hk], h3⟩
      · rw [Int.max_eq_left h]
        exact Or.inr ⟨n, by simp, rfl⟩

/-- **C28**.  The levels at which a list of loops is separated are the largest first and last level
over its statements, if these arrays are given and the result is consistent (`0 < first ≤ last`), and
the global ones otherwise. -/
theorem C28_levels (opt : Options) (T : List (Loop D S)) :
    (∀ fs ls first last, opt.fs = some fs → opt.ls = some ls → IsMax fs (stmts T) first →
      IsMax ls (stmts T) last →
      (0 < first ∧ first ≤ last → levels opt T = (first, last)) ∧
      (¬ (0 < first ∧ first ≤ last) → levels opt T = (opt.f, opt.l))) ∧
    (opt.fs = none ∨ opt.ls = none → levels opt T = (opt.f, opt.l)) := by
  constructor
  · intro fs ls first last hf hl h1 h2
    have e : loopsGetFl opt T (-1, -1) = (first, last) := by
      rw [loopsGetFl_some hf hl,
        foldl_max (v := fun n => fs.getD (n - 1) 0) _ _ _ h1.1 h1.2.1 h1.2.2,
        foldl_max (v := fun n => ls.getD (n - 1) 0) _ _ _ h2.1 h2.2.1 h2.2.2]
    unfold levels
    rw [e]
    dsimp only
    constructor
    · intro h; rw [if_neg (by omega)]
    · intro h; rw [if_pos (by omega)]
  · intro h
    unfold levels
    rw [loopsGetFl_none h]
    simp

example : IsMax [2, 3] [1, 2] 3 ∧ IsMax [2, 4] [1, 2] 4 ∧
    levels { fs := some [2, 3], ls := some [2, 4] } exStmts = (3, 4) :=
  ⟨by simp [IsMax], by simp [IsMax], by decide⟩

end Verif.Props.LoopOps
