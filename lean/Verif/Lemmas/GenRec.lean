import Verif.Lemmas.GenOrder
import Verif.Props.Stride
import Mathlib.Data.List.TakeDrop

/-! # Recursion, backtracking and combination of the generated loops -/

namespace Verif.Gen

open Verif.Loop Verif.Props.Separate Verif.ScalarSort Verif.Props.ScalarSort

variable {D S C Par : Type} {o : DomOps D S C} {mem : D → Par × Pt → Prop} {ok : Nat → S → Par × Pt → Prop}

/-! ## Facts about the semantics -/

theorem seqLoops_has {m : Sem D S} : ∀ (ls : List (Loop D S)) (L : Nat) (x : Pt) (e f : Inst),
    seqLoops m L x ls e f → hasLoops m L x ls e ∧ hasLoops m L x ls f := by
  intro ls
  refine Loop.rec_1 (D := D) (S := S)
    (motive_1 := fun l => ∀ (L : Nat) (x : Pt) (e f : Inst),
      seqLoop m L x l e f → hasLoop m L x l e ∧ hasLoop m L x l f)
    (motive_2 := fun ls => ∀ (L : Nat) (x : Pt) (e f : Inst),
      seqLoops m L x ls e f → hasLoops m L x ls e ∧ hasLoops m L x ls f) ?_ ?_ ?_ ls
  · intro d ot st b inner ih L x e f h
    rw [seqLoop] at h
    rw [hasLoop_mk, hasLoop_mk]
    rcases h with ⟨y, hy, ⟨h1, h2⟩ | h⟩ | ⟨y, z, hy, hz, _, h1, h2⟩
    · exact ⟨⟨y, hy, Or.inl h1⟩, ⟨y, hy, Or.inr h2⟩⟩
    · have := ih _ _ _ _ h
      exact ⟨⟨y, hy, Or.inr this.1⟩, ⟨y, hy, Or.inr this.2⟩⟩
    · exact ⟨⟨y, hy, h1⟩, ⟨z, hz, h2⟩⟩
  · intro L x e f h
    simp [seqLoops] at h
  · intro l ls ih1 ih2 L x e f h
    rw [seqLoops] at h
    rw [hasLoops, hasLoops]
    rcases h with h | ⟨h1, h2⟩ | h
    · have := ih1 _ _ _ _ h
      exact ⟨Or.inl this.1, Or.inl this.2⟩
    · exact ⟨Or.inl h1, Or.inr h2⟩
    · have := ih2 _ _ _ _ h
      exact ⟨Or.inr this.1, Or.inr this.2⟩

theorem seqLoops_sublist {m : Sem D S} {L : Nat} {x : Pt} {e f : Inst} {ls ls' : List (Loop D S)}
    (hs : ls.Sublist ls') (h : seqLoops m L x ls e f) : seqLoops m L x ls' e f := by
  rw [seqLoops_iff] at h ⊢
  rcases h with ⟨l, hl, h⟩ | ⟨a, b, hab, ha, hb⟩
  · exact Or.inl ⟨l, hs.subset hl, h⟩
  · exact Or.inr ⟨a, b, hab.trans hs, ha, hb⟩

theorem Adm.congr {L : Nat} {st : Option S} {p : Par} {x y : Pt} (h : Adm ok L st (p, x))
    (hxy : Agree (L + 1) x y) : Adm ok L st (p, y) := fun s hs z hz => h s hs z (hxy.trans hz)

theorem visits_nd {L : Nat} {x y : Pt} {p : Par} {d : D} {st : Option S} (hd : o.dim d = L) :
    Visits (sem o mem ok p) L x d st y ↔
      ((0 < L ∧ ∃ v, y = setAt x L v) ∨ (L = 0 ∧ y = x)) ∧ mem d (p, y) ∧
        (0 < L → ∀ s, st = some s → ok L s (p, y)) := by
  have hdm : (sem o mem ok p).dim d = L := hd
  unfold Visits
  by_cases h0 : 0 < L
  · rw [if_pos ⟨h0, Nat.le_of_eq hdm.symm⟩]
    constructor
    · rintro ⟨hv, hm, hs⟩
      exact ⟨Or.inl ⟨h0, hv⟩, hm, fun _ => hs⟩
    · rintro ⟨⟨_, hv⟩ | ⟨h, _⟩, hm, hs⟩
      · exact ⟨hv, hm, hs h0⟩
      · omega
  · rw [if_neg (by omega)]
    constructor
    · rintro ⟨hv, hm⟩
      exact ⟨Or.inr ⟨by omega, hv⟩, hm, fun h => absurd h h0⟩
    · rintro ⟨⟨h, _⟩ | ⟨_, hv⟩, hm, _⟩
      · omega
      · exact ⟨hv, hm⟩

/-- A loop of level `L` at level `L`. -/
theorem hasLoop_nd {L : Nat} {x : Pt} {p : Par} {t : Loop D S} {e : Inst} (h : Nd o L t) :
    hasLoop (sem o mem ok p) L x t e ↔ ∃ y, ((0 < L ∧ ∃ v, y = setAt x L v) ∨ (L = 0 ∧ y = x)) ∧
      mem t.dom (p, y) ∧ (0 < L → ∀ s, t.stride = some s → ok L s (p, y)) ∧
      hasLoops (sem o mem ok p) (L + 1) y t.inner e := by
  obtain ⟨d, ot, st, b, inner⟩ := t
  obtain ⟨h1, h2⟩ := h
  simp only [Loop.dom_mk, Loop.block_mk] at h1 h2
  subst h2
  simp only [hasLoop_mk, visits_nd h1, BlockAt, Loop.dom_mk, Loop.inner_mk, Loop.stride_mk,
    reduceCtorEq, false_and, false_or, and_assoc]

theorem seqLoop_nd {L : Nat} {x : Pt} {p : Par} {t : Loop D S} {e f : Inst} (h : Nd o L t) :
    seqLoop (sem o mem ok p) L x t e f ↔
      (∃ y, ((0 < L ∧ ∃ v, y = setAt x L v) ∨ (L = 0 ∧ y = x)) ∧ mem t.dom (p, y) ∧
        (0 < L → ∀ s, t.stride = some s → ok L s (p, y)) ∧
        seqLoops (sem o mem ok p) (L + 1) y t.inner e f) ∨
      (0 < L ∧ ∃ v w, v < w ∧ mem t.dom (p, setAt x L v) ∧ mem t.dom (p, setAt x L w) ∧
        (∀ s, t.stride = some s → ok L s (p, setAt x L v) ∧ ok L s (p, setAt x L w)) ∧
        hasLoops (sem o mem ok p) (L + 1) (setAt x L v) t.inner e ∧
        hasLoops (sem o mem ok p) (L + 1) (setAt x L w) t.inner f) := by
  obtain ⟨d, ot, st, b, inner⟩ := t
  obtain ⟨h1, h2⟩ := h
  simp only [Loop.dom_mk, Loop.block_mk] at h1 h2
  subst h2
  simp only [seqLoop, visits_nd h1, BlockAt, Loop.dom_mk, Loop.inner_mk, Loop.stride_mk,
    reduceCtorEq, false_and, false_or, and_assoc]
  refine or_congr Iff.rfl ?_
  constructor
  · rintro ⟨y, z, hy, hm, hs, hz, hm', hs', hlt, h, h'⟩
    rcases hy with ⟨h0, v, rfl⟩ | ⟨h0, rfl⟩
    · rcases hz with ⟨_, w, rfl⟩ | ⟨h0', _⟩
      · rw [setAt_same, setAt_same] at hlt
        exact ⟨h0, v, w, hlt, hm, hm', fun s e => ⟨hs h0 s e, hs' h0 s e⟩, h, h'⟩
      · omega
    · rcases hz with ⟨h0', _⟩ | ⟨_, rfl⟩
      · omega
      · omega
  · rintro ⟨h0, v, w, hlt, hm, hm', hs, h, h'⟩
    exact ⟨_, _, Or.inl ⟨h0, v, rfl⟩, hm, fun _ s e => (hs s e).1, Or.inl ⟨h0, w, rfl⟩, hm',
      fun _ s e => (hs s e).2, by rw [setAt_same, setAt_same]; exact hlt, h, h'⟩

theorem visits_sh {L : Nat} {x y : Pt} {p : Par} {d : D} (hd : o.dim d = L) :
    Visits (sem o mem ok p) L x d none y ↔
      ((0 < L ∧ ∃ v, y = setAt x L v) ∨ (L = 0 ∧ y = x)) ∧ mem d (p, y) := by
  have hdm : (sem o mem ok p).dim d = L := hd
  unfold Visits
  by_cases h0 : 0 < L
  · rw [if_pos ⟨h0, Nat.le_of_eq hdm.symm⟩]
    constructor
    · rintro ⟨hv, hm, _⟩
      exact ⟨Or.inl ⟨h0, hv⟩, hm⟩
    · rintro ⟨⟨_, hv⟩ | ⟨h, _⟩, hm⟩
      · exact ⟨hv, hm, by simp⟩
      · omega
  · rw [if_neg (by omega)]
    constructor
    · rintro ⟨hv, hm⟩
      exact ⟨Or.inr ⟨by omega, hv⟩, hm⟩
    · rintro ⟨⟨h, _⟩ | ⟨_, hv⟩, hm⟩
      · omega
      · exact ⟨hv, hm⟩

/-- A loop of dimension `L` without block and stride at level `L`. -/
theorem hasLoop_sh {L : Nat} {x : Pt} {p : Par} {t : Loop D S} {e : Inst} (h : Sh o L t) :
    hasLoop (sem o mem ok p) L x t e ↔ ∃ y, ((0 < L ∧ ∃ v, y = setAt x L v) ∨ (L = 0 ∧ y = x)) ∧
      mem t.dom (p, y) ∧ hasLoops (sem o mem ok p) (L + 1) y t.inner e := by
  obtain ⟨d, ot, st, b, inner⟩ := t
  obtain ⟨h1, h2, h3⟩ := h
  simp only [Loop.dom_mk, Loop.block_mk, Loop.stride_mk] at h1 h2 h3
  subst h2 h3
  simp only [hasLoop_mk, visits_sh h1, BlockAt, Loop.dom_mk, Loop.inner_mk, reduceCtorEq, false_and,
    false_or, and_assoc]

theorem seqLoop_sh {L : Nat} {x : Pt} {p : Par} {t : Loop D S} {e f : Inst} (h : Sh o L t) :
    seqLoop (sem o mem ok p) L x t e f ↔
      (∃ y, ((0 < L ∧ ∃ v, y = setAt x L v) ∨ (L = 0 ∧ y = x)) ∧ mem t.dom (p, y) ∧
        seqLoops (sem o mem ok p) (L + 1) y t.inner e f) ∨
      (0 < L ∧ ∃ v w, v < w ∧ mem t.dom (p, setAt x L v) ∧ mem t.dom (p, setAt x L w) ∧
        hasLoops (sem o mem ok p) (L + 1) (setAt x L v) t.inner e ∧
        hasLoops (sem o mem ok p) (L + 1) (setAt x L w) t.inner f) := by
  obtain ⟨d, ot, st, b, inner⟩ := t
  obtain ⟨h1, h2, h3⟩ := h
  simp only [Loop.dom_mk, Loop.block_mk, Loop.stride_mk] at h1 h2 h3
  subst h2 h3
  simp only [seqLoop, visits_sh h1, BlockAt, Loop.dom_mk, Loop.inner_mk, reduceCtorEq, false_and,
    false_or, and_assoc]
  refine or_congr Iff.rfl ?_
  constructor
  · rintro ⟨y, z, hy, hm, hz, hm', hlt, h, h'⟩
    rcases hy with ⟨h0, v, rfl⟩ | ⟨h0, rfl⟩
    · rcases hz with ⟨_, w, rfl⟩ | ⟨h0', _⟩
      · rw [setAt_same, setAt_same] at hlt
        exact ⟨h0, v, w, hlt, hm, hm', h, h'⟩
      · omega
    · rcases hz with ⟨h0', _⟩ | ⟨_, rfl⟩
      · omega
      · omega
  · rintro ⟨h0, v, w, hlt, hm, hm', h, h'⟩
    exact ⟨_, _, Or.inl ⟨h0, v, rfl⟩, hm, Or.inl ⟨h0, w, rfl⟩, hm',
      by rw [setAt_same, setAt_same]; exact hlt, h, h'⟩

theorem agree_setAt (x : Pt) (L : Nat) (v : Int) (h0 : 0 < L) : Agree L x (setAt x L v) := by
  intro i hi
  rw [setAt_other (by omega)]

/-! ## Correct loop lists -/

/-- The loop list `T` executes exactly the instances of the statement loops `B`, in the order
`Rel`. -/
structure Correct (o : DomOps D S C) (mem : D → Par × Pt → Prop) (ok : Nat → S → Par × Pt → Prop)
    (Rel : Nat → Nat → Inst → Inst → Prop) (L s : Nat) (B T : List (Loop D S)) : Prop where
  has : ∀ p x e, hasLoops (sem o mem ok p) L x T e ↔ InstOf o mem B p L x e
  seq : ∀ p x e f, seqLoops (sem o mem ok p) L x T e f → Rel L s e f

/-- Shape of generated loops: loops of the level, or statements without iterator for it. -/
def Top (o : DomOps D S C) (L : Nat) (t : Loop D S) : Prop :=
  Nd o L t ∨ (t.block ≠ none ∧ t.inner = [] ∧ o.dim t.dom + 1 = L)

theorem InstOf.append {A B : List (Loop D S)} {p : Par} {L : Nat} {x : Pt} {e : Inst} :
    InstOf o mem (A ++ B) p L x e ↔ InstOf o mem A p L x e ∨ InstOf o mem B p L x e := by
  unfold InstOf
  simp only [List.mem_append, or_and_right, exists_or]

theorem before_inst {Rel : Nat → Nat → Inst → Inst → Prop} {L s : Nat} {A B : List (Loop D S)}
    (h : ∀ a ∈ A, ∀ b ∈ B, Before o mem Rel L s a b) {p : Par} {x : Pt} {e f : Inst}
    (he : InstOf o mem A p L x e) (hf : InstOf o mem B p L x f) : Rel L s e f := by
  obtain ⟨a, ha, y, hy, hm, hat⟩ := he
  obtain ⟨b, hb, z, hz, hm', hat'⟩ := hf
  exact h a ha b hb p y z hm hm' (hy.symm.trans hz) e f hat hat'

theorem Correct.nil {Rel : Nat → Nat → Inst → Inst → Prop} {L s : Nat} :
    Correct o mem ok Rel L s [] [] :=
  ⟨by simp [hasLoops, InstOf], by simp [seqLoops]⟩

theorem Correct.append {Rel : Nat → Nat → Inst → Inst → Prop} {L s : Nat}
    {A B TA TB : List (Loop D S)} (hA : Correct o mem ok Rel L s A TA)
    (hB : Correct o mem ok Rel L s B TB) (h : ∀ a ∈ A, ∀ b ∈ B, Before o mem Rel L s a b) :
    Correct o mem ok Rel L s (A ++ B) (TA ++ TB) := by
  refine ⟨fun p x e => ?_, fun p x e f hs => ?_⟩
  · rw [hasLoops_append, InstOf.append, hA.has, hB.has]
  · rw [seqLoops_append] at hs
    rcases hs with hs | ⟨h1, h2⟩ | hs
    · exact hA.seq p x e f hs
    · exact before_inst h ((hA.has _ _ _).1 h1) ((hB.has _ _ _).1 h2)
    · exact hB.seq p x e f hs

theorem Correct.congr {Rel : Nat → Nat → Inst → Inst → Prop} {L s : Nat}
    {A B T : List (Loop D S)} (hA : Correct o mem ok Rel L s A T) (h : ∀ l, l ∈ A ↔ l ∈ B) :
    Correct o mem ok Rel L s B T := by
  refine ⟨fun p x e => ?_, hA.seq⟩
  rw [hA.has]
  unfold InstOf
  simp only [h]

/-- Concatenation of many lists. -/
theorem Correct.flatten {Rel : Nat → Nat → Inst → Inst → Prop} {L s : Nat}
    {Bs Ts : List (List (Loop D S))} (h : List.Forall₂ (Correct o mem ok Rel L s) Bs Ts)
    (ho : Bs.Pairwise (fun A B => ∀ a ∈ A, ∀ b ∈ B, Before o mem Rel L s a b)) :
    Correct o mem ok Rel L s Bs.flatten Ts.flatten := by
  induction h with
  | nil => exact Correct.nil
  | cons h1 _ ih =>
    rw [List.pairwise_cons] at ho
    rw [List.flatten_cons, List.flatten_cons]
    refine h1.append (ih ho.2) ?_
    intro a ha b hb
    obtain ⟨B, hB, hb⟩ := List.mem_flatten.1 hb
    exact ho.1 B hB a ha b hb

/-- A statement without iterator at the level. -/
theorem Correct.leaf (G : GenLaws o mem) {Rel : Nat → Nat → Inst → Inst → Prop} {L s : Nat}
    {l : Loop D S} (hi : l.inner = []) (hd : o.dim l.dom < L) :
    Correct o mem ok Rel L s [l] [l] := by
  obtain ⟨d, ot, st, b, inner⟩ := l
  simp only [Loop.inner_mk, Loop.dom_mk] at hi hd
  subst hi
  have hV : ∀ (p : Par) (x y : Pt), Visits (sem o mem ok p) L x d st y ↔ y = x ∧ mem d (p, y) := by
    intro p x y
    unfold Visits
    rw [if_neg (by simp only [sem]; omega)]
    rfl
  refine ⟨fun p x e => ?_, fun p x e f h => ?_⟩
  · simp only [hasLoops, hasLoop_mk, hV, or_false]
    unfold InstOf
    constructor
    · rintro ⟨y, ⟨rfl, hm⟩, h⟩
      exact ⟨_, List.mem_singleton.2 rfl, y, Agree.refl _ _, hm, h⟩
    · rintro ⟨b', hb, y, hy, hm, h⟩
      rw [List.mem_singleton] at hb
      subst hb
      have hxy : ∀ i, i < o.dim d → x i = y i := fun i hi => hy i (by omega)
      refine ⟨x, ⟨rfl, (G.congr_iff hxy).2 hm⟩, h.1, ?_⟩
      rw [h.2]
      exact argsOf_congr (fun i hi => (hxy i hi).symm)
  · simp only [seqLoops, seqLoop, hV, hasLoops, and_false, or_false] at h
    simp only [exists_false, false_or] at h
    obtain ⟨y, z, ⟨rfl, _⟩, ⟨rfl, _⟩, hlt, _⟩ := h
    omega

/-! ## Recursion on the inner loops -/

/-- The conditions under which statements are handed to the generation at a level. -/
structure Pre (o : DomOps D S C) (scaldims : List Nat) (ord : Block → Block → Prop) (L s : Nat)
    (B : List (Loop D S)) : Prop where
  inner : ∀ b ∈ B, b.inner = []
  more : ∀ b ∈ B, more o b L s scaldims.length = true
  low : ∀ b ∈ B, L ≤ o.dim b.dom + 1
  keys : KOK (isScal scaldims) ord (keys o B)
  pos : Pos (isScal scaldims) L s

theorem span_more (o : DomOps D S C) (L s n : Nat) (ls : List (Loop D S)) :
    (spanMore o L s n ls).1 ++ (spanMore o L s n ls).2 = ls ∧
      (∀ l ∈ (spanMore o L s n ls).1, more o l L s n = true) ∧
      ∀ l r, (spanMore o L s n ls).2 = l :: r → more o l L s n = false := by
  unfold spanMore
  rw [List.span_eq_takeWhile_dropWhile]
  refine ⟨List.takeWhile_append_dropWhile, ?_, ?_⟩
  · intro l hl
    have := List.all_takeWhile (p := fun l => more o l L s n) (l := ls)
    rw [List.all_eq_true] at this
    exact this l hl
  · intro l r h
    dsimp only at h
    have := List.head_dropWhile_not (fun l => more o l L s n) (l := ls) (by rw [h]; simp)
    simpa [h] using this

theorem keys_pair {scaldims : List Nat} {ord : Block → Block → Prop} {A B : List (Loop D S)}
    (hK : KOK (isScal scaldims) ord (keys o (A ++ B))) {a b : Loop D S} (ha : a ∈ A) (hb : b ∈ B)
    {u v : Block} (hu : a.block = some u) (hv : b.block = some v) : ord u v := by
  have := hK.ord
  rw [keys_append, List.pairwise_append] at this
  exact this.2.2 _ (List.mem_map_of_mem ha) _ (List.mem_map_of_mem hb) u v hu hv

theorem recurseInner_correct (G : GenLaws o mem) {scaldims : List Nat}
    {ord : Block → Block → Prop} {Rel : Nat → Nat → Inst → Inst → Prop}
    (RL : RelLaws (isScal scaldims) ord Rel) {L s : Nat} (hp : Pos (isScal scaldims) L s)
    {gen : List (Loop D S) → Option (List (Loop D S))}
    (hgen : ∀ B T, Pre o scaldims ord L s B → gen B = some T →
      Correct o mem ok Rel L s B T ∧ ∀ t ∈ T, Top o L t) :
    ∀ (n : Nat) (ls T : List (Loop D S)), (∀ l ∈ ls, l.inner = []) → (∀ l ∈ ls, L ≤ o.dim l.dom + 1) →
      KOK (isScal scaldims) ord (keys o ls) →
      recurseInner o gen L s scaldims.length n ls = some T →
      Correct o mem ok Rel L s ls T ∧ ∀ t ∈ T, Top o L t := by
  have hlen : (isScal scaldims).length = scaldims.length := by simp [isScal]
  have hnm : ∀ l : Loop D S, more o l L s scaldims.length = false →
      scaldims.length < L + s ∧ o.dim l.dom < L := by
    intro l h
    unfold more at h
    simp only [Bool.or_eq_false_iff, decide_eq_false_iff_not] at h
    omega
  intro n
  induction n with
  | zero =>
    intro ls T _ _ _ h
    match ls, h with
    | [], h =>
      simp only [recurseInner] at h
      obtain rfl := Option.some.inj h
      exact ⟨Correct.nil, by simp⟩
  | succ n ih =>
    intro ls T hin hlow hK h
    match ls, h with
    | [], h =>
      simp only [recurseInner] at h
      obtain rfl := Option.some.inj h
      exact ⟨Correct.nil, by simp⟩
    | l :: ls, h =>
      rw [recurseInner] at h
      split at h
      · rename_i hm
        obtain ⟨sp1, sp2, sp3⟩ := span_more o L s scaldims.length (l :: ls)
        generalize (spanMore o L s scaldims.length (l :: ls)).1 = A at h sp1 sp2
        generalize (spanMore o L s scaldims.length (l :: ls)).2 = B at h sp1 sp3
        split at h
        · exact absurd h (by simp)
        · rename_i r hr
          split at h
          · exact absurd h (by simp)
          · rename_i rs hrs
            obtain rfl := Option.some.inj h
            rw [← sp1] at hK hin hlow ⊢
            have hKA := hK.sublist (keys_sublist (List.sublist_append_left A B))
            have hKB := hK.sublist (keys_sublist (List.sublist_append_right A B))
            have hA := hgen A r ⟨fun b hb => hin b (by simp [hb]), sp2,
              fun b hb => hlow b (by simp [hb]), hKA, hp⟩ hr
            have hB := ih B rs (fun b hb => hin b (by simp [hb]))
              (fun b hb => hlow b (by simp [hb])) hKB hrs
            refine ⟨hA.1.append hB.1 ?_, ?_⟩
            · intro a ha b hb
              -- the first loop behind the span is terminal
              match B, sp3 with
              | c :: B', sp3 =>
                obtain ⟨n1, n2⟩ := hnm c (sp3 c B' rfl)
                have hmb : o.dim b.dom < L := by
                  rcases List.mem_cons.1 hb with rfl | hb'
                  · exact n2
                  · have hs : [a, c, b].Sublist (A ++ c :: B') := by
                      have h1 : [a].Sublist A := List.singleton_sublist.2 ha
                      have h2 : [c, b].Sublist (c :: B') :=
                        (List.singleton_sublist.2 hb').cons_cons c
                      exact h1.append h2
                    have := hK.uni (a.block, o.dim a.dom) (c.block, o.dim c.dom) (b.block, o.dim b.dom)
                      (hs.map (fun b : Loop D S => (b.block, o.dim b.dom)))
                    have ha2 := sp2 a ha
                    unfold more at ha2
                    simp only [Bool.or_eq_true, decide_eq_true_eq] at ha2
                    simp only at this
                    omega
                intro p x y hx hy hxy e f he hf
                refine RL.term L s e f (by omega) (Or.inr ?_) (keys_pair hK ha hb he.1 hf.1)
                rw [at_length hf]
                exact hmb
            · intro t ht
              rcases List.mem_append.1 ht with ht | ht
              · exact hA.2 t ht
              · exact hB.2 t ht
      · rename_i hm
        have hm : more o l L s scaldims.length = false := by simpa using hm
        obtain ⟨n1, n2⟩ := hnm l hm
        split at h
        · exact absurd h (by simp)
        · rename_i rs hrs
          obtain rfl := Option.some.inj h
          have hKB := hK.sublist (keys_sublist (List.sublist_cons_self l ls))
          have hB := ih ls rs (fun b hb => hin b (by simp [hb]))
            (fun b hb => hlow b (by simp [hb])) hKB hrs
          have hl := hin l (by simp)
          refine ⟨(Correct.leaf G hl n2).append hB.1 ?_, ?_⟩
          · intro a ha b hb p x y hx hy hxy e f he hf
            have ha' := List.mem_singleton.1 ha
            refine RL.term L s e f (by omega) (Or.inl ?_)
              (keys_pair (A := [l]) (B := ls) hK ha hb he.1 hf.1)
            rw [at_length he, ha']
            exact n2
          · intro t ht
            rcases List.mem_cons.1 ht with rfl | ht
            · exact Or.inr ⟨hK.block (t.block, o.dim t.dom) (by simp [keys]), hl,
                by have := hlow t (by simp); omega⟩
            · exact hB.2 t ht

/-! ## One loop with its generated inner loops -/

/-- A loop of level `L` with generated inner loops. -/
structure Tree (o : DomOps D S C) (mem : D → Par × Pt → Prop) (ok : Nat → S → Par × Pt → Prop)
    (Rel : Nat → Nat → Inst → Inst → Prop) (L s : Nat) (t : Loop D S) : Prop where
  shape : Nd o L t
  top : ∀ i ∈ t.inner, Top o (L + 1) i
  into : ∀ p y e, hasLoops (sem o mem ok p) (L + 1) y t.inner e →
    mem t.dom (p, y) ∧ Adm ok L t.stride (p, y) ∧ L ≤ e.args.length
  seq : ∀ p x e f, seqLoop (sem o mem ok p) L x t e f → Rel L s e f

theorem tree_of_correct (G : GenLaws o mem) {scaldims : List Nat} {ord : Block → Block → Prop}
    {Rel : Nat → Nat → Inst → Inst → Prop} (RL : RelLaws (isScal scaldims) ord Rel) {L s : Nat}
    (hc : levelIsConstant L s (isScal scaldims) = false) (h0s : L = 0 → s = 0)
    {d : D} {ot : Bool} {st : Option S} {I T : List (Loop D S)}
    (hd : o.dim d = L) (hdim : ∀ i ∈ I, L ≤ o.dim i.dom)
    (hinto : ∀ i ∈ I, ∀ px, mem i.dom px → mem d px ∧ Adm ok L st px)
    (hT : Correct o mem ok Rel (L + 1) s I T) (htop : ∀ t ∈ T, Top o (L + 1) t) :
    Tree o mem ok Rel L s (.mk d ot st none T) ∧
      ∀ p x e, hasLoop (sem o mem ok p) L x (.mk d ot st none T) e ↔ InstOf o mem I p L x e := by
  have hsh : Nd o L (Loop.mk d ot st none T) := ⟨hd, rfl⟩
  have hin : ∀ p y e, hasLoops (sem o mem ok p) (L + 1) y T e →
      mem d (p, y) ∧ Adm ok L st (p, y) ∧ L ≤ e.args.length := by
    intro p y e h
    obtain ⟨i, hi, z, hz, hm, hat⟩ := (hT.has p y e).1 h
    refine ⟨(agree_dim G (Nat.le_of_eq hd) hz).2 (hinto i hi _ hm).1,
      (hinto i hi _ hm).2.congr hz.symm, ?_⟩
    rw [at_length hat]
    exact hdim i hi
  refine ⟨⟨hsh, htop, hin, ?_⟩, ?_⟩
  · intro p x e f h
    rw [seqLoop_nd hsh] at h
    simp only [Loop.dom_mk, Loop.inner_mk] at h
    rcases h with ⟨y, hy, hm, _, h⟩ | ⟨h0, v, w, hvw, _, _, _, he, hf⟩
    · have hr := hT.seq p y e f h
      obtain ⟨he, hf⟩ := seqLoops_has _ _ _ _ _ h
      rcases hy with ⟨h0, v, rfl⟩ | ⟨h0, rfl⟩
      · have le := (hin p _ e he).2.2
        have lf := (hin p _ f hf).2.2
        refine RL.next L s e f h0 hc le lf ?_ hr
        rw [hasLoops_args _ _ _ _ he (L - 1) (by omega) (by omega),
          hasLoops_args _ _ _ _ hf (L - 1) (by omega) (by omega)]
      · subst h0
        have := h0s rfl
        subst this
        exact RL.zero e f hr
    · have le := (hin p _ e he).2.2
      have lf := (hin p _ f hf).2.2
      refine RL.value L s e f h0 hc le lf ?_
      rw [hasLoops_args _ _ _ _ he (L - 1) (by omega) (by omega),
        hasLoops_args _ _ _ _ hf (L - 1) (by omega) (by omega), setAt_same, setAt_same]
      exact hvw
  · intro p x e
    rw [hasLoop_nd hsh]
    simp only [Loop.dom_mk, Loop.inner_mk, Loop.stride_mk]
    constructor
    · rintro ⟨y, hy, hm, _, h⟩
      obtain ⟨i, hi, z, hz, hm', hat⟩ := (hT.has p y e).1 h
      refine ⟨i, hi, z, ?_, hm', hat⟩
      rcases hy with ⟨h0, v, rfl⟩ | ⟨h0, rfl⟩
      · exact (agree_setAt x L v h0).trans (hz.mono (by omega))
      · exact hz.mono (by omega)
    · rintro ⟨i, hi, z, hz, hm, hat⟩
      have hzd := (hinto i hi _ hm).1
      have hzs := (hinto i hi _ hm).2
      rcases Nat.eq_zero_or_pos L with h0 | h0
      · refine ⟨x, Or.inr ⟨h0, rfl⟩, ?_, fun h => by omega, ?_⟩
        · exact (G.congr_iff (fun i hi => by omega)).2 hzd
        · exact (hT.has p x e).2 ⟨i, hi, z, fun i hi => by omega, hm, hat⟩
      · have ha : Agree (L + 1) (setAt x L (z (L - 1))) z := by
          refine agree_succ ((agree_setAt x L _ h0).symm.trans hz) h0 ?_
          rw [setAt_same]
        exact ⟨_, Or.inl ⟨h0, _, rfl⟩, (agree_dim G (Nat.le_of_eq hd) ha).2 hzd,
          fun _ s hs => hzs s hs _ ha.symm,
          (hT.has p _ e).2 ⟨i, hi, z, ha, hm, hat⟩⟩

/-- A list of such loops that is correct. -/
structure Trees (o : DomOps D S C) (mem : D → Par × Pt → Prop) (ok : Nat → S → Par × Pt → Prop)
    (Rel : Nat → Nat → Inst → Inst → Prop) (L s : Nat) (B T : List (Loop D S)) : Prop where
  correct : Correct o mem ok Rel L s B T
  tree : ∀ t ∈ T, Tree o mem ok Rel L s t

theorem before_of_stage {Rel : Nat → Nat → Inst → Inst → Prop} {L s : Nat} {B R : List (Loop D S)}
    (h : Stage o mem ok Rel L s B R) (p : Par) (x : Pt) (e : Inst) :
    (∃ r ∈ R, InstOf o mem r.inner p L x e) ↔ InstOf o mem B p L x e := by
  constructor
  · rintro ⟨r, hr, i, hi, y, hy, hm, hat⟩
    obtain ⟨b, hb, h1, h2, h3⟩ := h.sound r hr i hi
    exact ⟨b, hb, y, hy, h3 _ hm, by rw [h1]; exact hat.1, by rw [h2]; exact hat.2⟩
  · rintro ⟨b, hb, y, hy, hm, hat⟩
    obtain ⟨r, hr, i, hi, h1, h2, h3⟩ := h.cover b hb _ hm
    exact ⟨r, hr, i, hi, y, hy, h3, by rw [h1]; exact hat.1, by rw [h2]; exact hat.2⟩

/-- Step 4 of `cloog_loop_generate_general`, after unrolling. -/
theorem recurseConst_trees (G : GenLaws o mem) {c : Ctx} {ord : Block → Block → Prop}
    {Rel : Nat → Nat → Inst → Inst → Prop} (RL : RelLaws (isScal c.scaldims) ord Rel) {L s : Nat}
    (hp : Pos (isScal c.scaldims) L s) (hc : levelIsConstant L s (isScal c.scaldims) = false)
    {gen : List (Loop D S) → D → Nat → Nat → Option (List (Loop D S))}
    (hgen : ∀ B d T, Pre o c.scaldims ord (L + 1) s B → gen B d (L + 1) s = some T →
      Correct o mem ok Rel (L + 1) s B T ∧ ∀ t ∈ T, Top o (L + 1) t)
    {B R T : List (Loop D S)} (hK : KOK (isScal c.scaldims) ord (keys o B))
    (hS : Stage o mem ok Rel L s B R)
    (h : flatMapM (loopRecurseConst o c gen L s) R = some T) : Trees o mem ok Rel L s B T := by
  have key : ∀ R T : List (Loop D S),
      (∀ r ∈ R, Nd o L r ∧ (keys o r.inner).Sublist (keys o B) ∧
        (∀ i ∈ r.inner, i.inner = [] ∧ L ≤ o.dim i.dom) ∧
        (∀ i ∈ r.inner, ∀ px, mem i.dom px → mem r.dom px ∧ Adm ok L r.stride px)) →
      R.Pairwise (fun r t => ∀ i ∈ r.inner, ∀ j ∈ t.inner, Before o mem Rel L s i j) →
      flatMapM (loopRecurseConst o c gen L s) R = some T →
      (∀ t ∈ T, Tree o mem ok Rel L s t) ∧
      (∀ p x e, hasLoops (sem o mem ok p) L x T e ↔ ∃ r ∈ R, InstOf o mem r.inner p L x e) ∧
      ∀ p x e f, seqLoops (sem o mem ok p) L x T e f → Rel L s e f := by
    intro R
    induction R with
    | nil =>
      intro T _ _ h
      rw [flatMapM] at h
      obtain rfl := Option.some.inj h
      simp [hasLoops, seqLoops]
    | cons r R ih =>
      intro T hR hO h
      rw [flatMapM] at h
      split at h
      · exact absurd h (by simp)
      · rename_i bs hbs
        split at h
        · exact absurd h (by simp)
        · rename_i cs hcs
          obtain rfl := Option.some.inj h
          rw [List.pairwise_cons] at hO
          obtain ⟨i1, i2, i3⟩ := ih cs (fun r hr => hR r (by simp [hr])) hO.2 hcs
          obtain ⟨hsh, hkr, hbase, hinto⟩ := hR r (by simp)
          unfold loopRecurseConst at hbs
          rw [Option.map_eq_some_iff] at hbs
          obtain ⟨t, ht, rfl⟩ := hbs
          obtain ⟨d, ot, st, b, inner⟩ := r
          obtain ⟨s1, s2⟩ := hsh
          simp only [Loop.dom_mk, Loop.block_mk, Loop.stride_mk, Loop.inner_mk] at s1 s2 hkr hbase hinto
          subst s2
          -- the loop after the single iteration test
          have hot : ∃ ot', (if 0 < L ∧ c.opt.otl = true then loopOtl o L (.mk d ot st none inner)
              else Loop.mk d ot st none inner) = .mk d ot' st none inner := by
            split
            · exact ⟨_, rfl⟩
            · exact ⟨_, rfl⟩
          obtain ⟨ot', hot⟩ := hot
          unfold recurseBelow at ht
          rw [hot] at ht
          dsimp only [Loop.stride_mk, Loop.inner_mk, Loop.dom_mk] at ht
          split at ht
          · exact absurd ht (by simp)
          · rename_i into hin
            obtain rfl := Option.some.inj ht
            obtain ⟨hC, hTop⟩ := recurseInner_correct G RL (pos_next hp hc)
              (fun B' T' hB' hT' => hgen B' _ T' hB' hT') _ _ _ (fun l hl => (hbase l hl).1)
              (fun l hl => by have := (hbase l hl).2; omega)
              (hK.sublist hkr) hin
            have h0s : L = 0 → s = 0 := by
              rintro rfl
              rcases hp with ⟨_, h⟩ | ⟨h, _⟩
              · exact h
              · omega
            obtain ⟨tr, th⟩ := tree_of_correct (ot := ot') G RL hc h0s s1
              (fun i hi => (hbase i hi).2) hinto hC hTop
            have hset : (Loop.mk d ot' st none inner).setInner into = .mk d ot' st none into := rfl
            rw [hset]
            refine ⟨?_, ?_, ?_⟩
            · intro t ht
              rcases List.mem_cons.1 ht with rfl | ht
              · exact tr
              · exact i1 t ht
            · intro p x e
              rw [List.singleton_append, hasLoops, th, i2]
              simp
            · intro p x e f hs
              rw [List.singleton_append, seqLoops] at hs
              rcases hs with hs | ⟨h1, h2⟩ | hs
              · exact tr.seq p x e f hs
              · rw [th] at h1
                rw [i2] at h2
                obtain ⟨r', hr', h2⟩ := h2
                exact before_inst (hO.1 r' hr') h1 h2
              · exact i3 p x e f hs
  obtain ⟨k1, k2, k3⟩ := key R T
    (fun r hr => ⟨hS.shape r hr, hS.keys r hr, hS.base r hr, hS.into r hr⟩) hS.order h
  refine ⟨⟨fun p x e => ?_, k3⟩, k1⟩
  rw [k2, before_of_stage hS]

theorem flatMapM_flatten {α β : Type} {f : α → Option (List β)} : ∀ {ls : List (List α)}
    {r : List β}, flatMapM (fun l => flatMapM f l) ls = some r → flatMapM f ls.flatten = some r
  | [], r, h => h
  | l :: ls, r, h => by
    rw [flatMapM] at h
    split at h
    · exact absurd h (by simp)
    · rename_i bs hbs
      split at h
      · exact absurd h (by simp)
      · rename_i cs hcs
        obtain rfl := Option.some.inj h
        have ih := flatMapM_flatten hcs
        rw [List.flatten_cons]
        clear h hcs
        induction l generalizing bs with
        | nil =>
          rw [flatMapM] at hbs
          obtain rfl := Option.some.inj hbs
          simpa using ih
        | cons a l ihl =>
          rw [flatMapM] at hbs
          split at hbs
          · exact absurd hbs (by simp)
          · rename_i xs hxs
            split at hbs
            · exact absurd hbs (by simp)
            · rename_i ys hys
              obtain rfl := Option.some.inj hbs
              rw [List.cons_append, flatMapM, hxs, ihl ys hys]
              simp

/-- What is assumed about the operations on strides: whether a stride admits a point depends on the
iterators up to its level; moving the lower bound to the next admitted value loses no admitted point
(`cloog_domain_stride_lower_bound`, C07); a stride with a variable offset
(`cloog_domain_list_stride`, C21) admits the points of all the domains it was found for; a stride with a
constant offset admits the values of its residue class. -/
structure StrideLaws (o : DomOps D S C) (mem : D → Par × Pt → Prop)
    (ok : Nat → S → Par × Pt → Prop) : Prop where
  congr : ∀ L s p x y, 0 < L → Agree (L + 1) x y → ok L s (p, x) → ok L s (p, y)
  dim_lower : ∀ d L s, o.dim (o.strideLowerBound d L s) = o.dim d
  convex_lower : ∀ d L s, o.isConvex d = true → o.isConvex (o.strideLowerBound d L s) = true
  lower : ∀ d L s px, 0 < L → mem d px → ok L s px → mem (o.strideLowerBound d L s) px
  list : ∀ ds L s, 0 < L → o.listStride ds L = some s → ∀ d ∈ ds, ∀ px, mem d px → ok L s px
  residue : ∃ res, Verif.Props.Stride.ResidueOK mem res ∧
    ∀ d L, o.stride d L = residueStride (res d L).1 (res d L).2
  const : ∀ L s off px, 0 < L → 1 < s → 0 ≤ off → off < s → px.2 (L - 1) % s = off →
    ok L (o.mkStride s off) px

/-- Attaching a stride (`cloog_loop_stride`) loses nothing of the inner loops. -/
theorem stride_refines (K : StrideLaws o mem ok) {Rel : Nat → Nat → Inst → Inst → Prop} {L s : Nat}
    (h0 : 0 < L) {r : Loop D S} (hsh : Nd o L r) (hcv : o.isConvex r.dom = true)
    (hinto : ∀ i ∈ r.inner, ∀ px, mem i.dom px → mem r.dom px ∧ Adm ok L r.stride px) :
    Nd o L (loopStride o L r) ∧ o.isConvex (loopStride o L r).dom = true ∧
      (loopStride o L r).inner = r.inner ∧
      ∀ i ∈ r.inner, ∀ px, mem i.dom px →
        mem (loopStride o L r).dom px ∧ Adm ok L (loopStride o L r).stride px := by
  obtain ⟨d, otl, st, b, inner⟩ := r
  simp only [Loop.inner_mk, Loop.dom_mk, Loop.stride_mk] at hinto hcv ⊢
  have main : ∀ q, (∀ i ∈ inner, ∀ px, mem i.dom px → ok L q px) →
      Nd o L (Loop.mk (o.strideLowerBound d L q) otl (some q) b inner) ∧
      o.isConvex (o.strideLowerBound d L q) = true ∧
      (Loop.mk (o.strideLowerBound d L q) otl (some q) b inner).inner = inner ∧
      ∀ i ∈ inner, ∀ px, mem i.dom px → mem (o.strideLowerBound d L q) px ∧ Adm ok L (some q) px := by
    intro q hq
    refine ⟨⟨(K.dim_lower d L q).trans hsh.1, hsh.2⟩, K.convex_lower d L q hcv, rfl, fun i hi px hpx => ?_⟩
    refine ⟨K.lower d L q px h0 (hinto i hi px hpx).1 (hq i hi px hpx), ?_⟩
    intro q' e y hy
    obtain rfl := Option.some.inj e
    exact K.congr L q px.1 px.2 y h0 hy (hq i hi px hpx)
  by_cases hc : o.canStride d L = false
  · have e : loopStride o L (Loop.mk d otl st b inner) = Loop.mk d otl st b inner := by
      simp [loopStride, hc]
    rw [e]
    exact ⟨hsh, hcv, rfl, hinto⟩
  cases hl : o.listStride (inner.map Loop.dom).reverse L with
  | some q =>
    have e : loopStride o L (Loop.mk d otl st b inner) =
        Loop.mk (o.strideLowerBound d L q) otl (some q) b inner := by
      simp [loopStride, hc, hl]
    rw [e]
    exact main q (fun i hi px hpx => K.list _ _ _ h0 hl i.dom (by simpa using ⟨i, hi, rfl⟩) px hpx)
  | none =>
    obtain ⟨res, hres, hst⟩ := K.residue
    rcases Verif.Props.Stride.C22_stride (mem := mem) hres hst L (.mk d otl st b inner) hl with
      e | ⟨q, off, e, q1, q2, q3, hv⟩
    · rw [e]
      exact ⟨hsh, hcv, rfl, hinto⟩
    · rw [e]
      exact main _ (fun i hi px hpx => K.const L q off px h0 q1 q2 q3 (hv i hi px hpx))

/-- Stride detection and unrolling (`loop_recurse` before the recursive call) keep the statements in
their pieces. -/
theorem recurse_stage (G : GenLaws o mem) {c : Ctx} (hns : c.opt.strides = true → StrideLaws o mem ok)
    (hnu : c.opt.firstUnroll ≠ 0) {ord : Block → Block → Prop}
    {Rel : Nat → Nat → Inst → Inst → Prop} (RL : RelLaws (isScal c.scaldims) ord Rel) {L s : Nat}
    (hp : Pos (isScal c.scaldims) L s) (hc : levelIsConstant L s (isScal c.scaldims) = false)
    {gen : List (Loop D S) → D → Nat → Nat → Option (List (Loop D S))}
    {B R T : List (Loop D S)} {cst : Bool} (hS : Stage o mem ok Rel L s B R)
    (hV : ∀ r ∈ R, o.isConvex r.dom = true) (h : recurse o c gen cst L s R = some T) :
    ∃ R', Stage o mem ok Rel L s B R' ∧ flatMapM (loopRecurseConst o c gen L s) R' = some T ∧
      (c.opt.strides = false ∨ L = 0 → (∀ r ∈ R, r.stride = none) → ∀ r ∈ R', r.stride = none) := by
  have h0s : L = 0 → s = 0 := by
    rintro rfl
    rcases hp with ⟨_, h⟩ | ⟨h, _⟩
    · exact h
    · omega
  have key : ∀ R T : List (Loop D S),
      (∀ r ∈ R, Nd o L r ∧ o.isConvex r.dom = true ∧ (∀ i ∈ r.inner, L ≤ o.dim i.dom) ∧
        (∀ i ∈ r.inner, ∀ px, mem i.dom px → mem r.dom px ∧ Adm ok L r.stride px)) →
      recurse o c gen cst L s R = some T →
      ∃ gs, List.Forall₂ (Refines o mem ok Rel L s) R gs ∧
        flatMapM (fun l => flatMapM (loopRecurseConst o c gen L s) l) gs = some T ∧
        (c.opt.strides = false ∨ L = 0 → (∀ r ∈ R, r.stride = none) →
          ∀ r ∈ gs.flatten, r.stride = none) := by
    intro R
    unfold recurse
    induction R with
    | nil =>
      intro T _ h
      exact ⟨[], .nil, by simpa [flatMapM] using h, by simp⟩
    | cons r R ih =>
      intro T hR h
      rw [flatMapM] at h
      split at h
      · exact absurd h (by simp)
      · rename_i bs hbs
        split at h
        · exact absurd h (by simp)
        · rename_i cs hcs
          obtain rfl := Option.some.inj h
          obtain ⟨gs, h1, h2, h3⟩ := ih cs (fun r hr => hR r (by simp [hr])) hcs
          obtain ⟨hsh, hcv, hdim, hinto⟩ := hR r (by simp)
          have hg : ∃ g, Refines o mem ok Rel L s r g ∧
              flatMapM (loopRecurseConst o c gen L s) g = some bs ∧
              (c.opt.strides = false ∨ L = 0 → r.stride = none → ∀ t ∈ g, t.stride = none) := by
            unfold loopRecurse at hbs
            -- the loop after the stride detection
            obtain ⟨r', hprep, hsh', hcv', hi', hinto', hpl⟩ : ∃ r', recursePrepare o c cst L s r =
                (if cst = false ∧ 0 ≤ c.opt.firstUnroll ∧ c.opt.firstUnroll ≤ L + s then
                  unrolled (unrollOne o L r')
                else some (.inl r')) ∧ Nd o L r' ∧ o.isConvex r'.dom = true ∧ r'.inner = r.inner ∧
                (∀ i ∈ r.inner, ∀ px, mem i.dom px → mem r'.dom px ∧ Adm ok L r'.stride px) ∧
                (c.opt.strides = false ∨ L = 0 → r' = r) := by
              unfold recursePrepare
              dsimp only
              by_cases hs : 0 < L ∧ c.opt.strides = true ∧ cst = false
              · rw [if_pos hs]
                obtain ⟨a1, a4, a2, a3⟩ :=
                  stride_refines (Rel := Rel) (s := s) (hns hs.2.1) hs.1 hsh hcv hinto
                refine ⟨_, rfl, a1, a4, a2, a3, fun h => ?_⟩
                rcases h with h | h
                · rw [hs.2.1] at h
                  exact absurd h (by simp)
                · omega
              · rw [if_neg hs]
                exact ⟨r, rfl, hsh, hcv, rfl, hinto, fun _ => rfl⟩
            rw [hprep] at hbs
            by_cases hun : cst = false ∧ 0 ≤ c.opt.firstUnroll ∧ c.opt.firstUnroll ≤ L + s
            · rw [if_pos hun] at hbs
              have h0 : 0 < L := by
                rcases Nat.eq_zero_or_pos L with h0 | h0
                · have := h0s h0
                  omega
                · exact h0
              have href := (unroll_refines G RL h0 hc hsh' hcv' (by rw [hi']; exact hdim)
                (by rw [hi']; exact hinto')).of_inner hi'
              have hun' : r'.stride = none → ∀ m ∈ unrollOne o L r', m.stride = none := by
                intro hst m hm
                unfold unrollOne at hm
                split at hm
                · rw [List.mem_singleton.1 hm]
                  exact hst
                · obtain ⟨k, _, hk⟩ := List.mem_filterMap.1 hm
                  dsimp only at hk
                  split at hk
                  · exact absurd hk (by simp)
                  · obtain rfl := Option.some.inj hk
                    rfl
              generalize unrollOne o L r' = g at hbs href hun'
              refine ⟨g, href, ?_, fun h h' => hun' (by rw [hpl h]; exact h')⟩
              match g, hbs with
              | [m], hbs =>
                simp only [unrolled] at hbs
                rw [flatMapM, hbs]
                simp [flatMapM]
              | a :: b :: ms, hbs => exact hbs
            · rw [if_neg hun] at hbs
              refine ⟨[r'], Refines.self hsh' hi' hinto', ?_, fun h h' t ht => by
                rw [List.mem_singleton.1 ht, hpl h]; exact h'⟩
              simp only at hbs
              rw [flatMapM, hbs]
              simp [flatMapM]
          obtain ⟨g, hg1, hg2, hg3⟩ := hg
          refine ⟨g :: gs, .cons hg1 h1, by rw [flatMapM, hg2, h2], fun h h' t ht => ?_⟩
          rw [List.flatten_cons, List.mem_append] at ht
          rcases ht with ht | ht
          · exact hg3 h (h' r (by simp)) t ht
          · exact h3 h (fun r hr => h' r (by simp [hr])) t ht
  obtain ⟨gs, g1, g2, g3⟩ := key R T
    (fun r hr => ⟨hS.shape r hr, hV r hr, fun i hi => (hS.base r hr i hi).2, hS.into r hr⟩) h
  exact ⟨_, hS.refine g1, flatMapM_flatten g2, g3⟩

theorem recurse_trees (G : GenLaws o mem) {c : Ctx} (hns : c.opt.strides = true → StrideLaws o mem ok)
    (hnu : c.opt.firstUnroll ≠ 0) {ord : Block → Block → Prop}
    {Rel : Nat → Nat → Inst → Inst → Prop} (RL : RelLaws (isScal c.scaldims) ord Rel) {L s : Nat}
    (hp : Pos (isScal c.scaldims) L s) (hc : levelIsConstant L s (isScal c.scaldims) = false)
    {gen : List (Loop D S) → D → Nat → Nat → Option (List (Loop D S))}
    (hgen : ∀ B d T, Pre o c.scaldims ord (L + 1) s B → gen B d (L + 1) s = some T →
      Correct o mem ok Rel (L + 1) s B T ∧ ∀ t ∈ T, Top o (L + 1) t)
    {B R T : List (Loop D S)} {cst : Bool} (hK : KOK (isScal c.scaldims) ord (keys o B))
    (hS : Stage o mem ok Rel L s B R) (hV : ∀ r ∈ R, o.isConvex r.dom = true)
    (h : recurse o c gen cst L s R = some T) : Trees o mem ok Rel L s B T := by
  obtain ⟨R', h1, h2, _⟩ := recurse_stage G hns hnu RL hp hc hS hV h
  exact recurseConst_trees G RL hp hc hgen hK h1 h2

end Verif.Gen
