import Verif.Model.LoopSem

/-! # Lemmas about the meaning of loop lists -/

namespace Verif.Loop

variable {D S : Type} {m : Sem D S}

theorem hasLoop_mk {L : Nat} {x : Pt} {d : D} {o : Bool} {st : Option S} {b : Option Block}
    {inner : List (Loop D S)} {e : Inst} :
    hasLoop m L x (.mk d o st b inner) e ↔
      ∃ y, Visits m L x d st y ∧ (BlockAt m d b y e ∨ hasLoops m (L + 1) y inner e) := by
  rw [hasLoop]

theorem hasLoops_iff {L : Nat} {x : Pt} {e : Inst} : ∀ {ls : List (Loop D S)},
    hasLoops m L x ls e ↔ ∃ l ∈ ls, hasLoop m L x l e
  | [] => by simp [hasLoops]
  | l :: ls => by simp [hasLoops, hasLoops_iff (ls := ls)]

theorem hasLoops_append {L : Nat} {x : Pt} {e : Inst} {a b : List (Loop D S)} :
    hasLoops m L x (a ++ b) e ↔ hasLoops m L x a e ∨ hasLoops m L x b e := by
  simp only [hasLoops_iff, List.mem_append, or_and_right, exists_or]

theorem hasLoops_flatten {L : Nat} {x : Pt} {e : Inst} {gs : List (List (Loop D S))} :
    hasLoops m L x gs.flatten e ↔ ∃ g ∈ gs, hasLoops m L x g e := by
  simp only [hasLoops_iff, List.mem_flatten]
  constructor
  · rintro ⟨l, ⟨g, hg, hl⟩, h⟩; exact ⟨g, hg, l, hl, h⟩
  · rintro ⟨g, hg, l, hl, h⟩; exact ⟨l, ⟨g, hg, hl⟩, h⟩

theorem seqLoops_append {L : Nat} {x : Pt} {e f : Inst} : ∀ {a b : List (Loop D S)},
    seqLoops m L x (a ++ b) e f ↔
      seqLoops m L x a e f ∨ (hasLoops m L x a e ∧ hasLoops m L x b f) ∨ seqLoops m L x b e f
  | [], b => by simp [seqLoops, hasLoops]
  | l :: a, b => by
    have ih := seqLoops_append (L := L) (x := x) (e := e) (f := f) (a := a) (b := b)
    simp only [List.cons_append, seqLoops, hasLoops, hasLoops_append, ih]
    tauto

/-- Two occurrences are in the same loop or in two loops of the list. -/
theorem seqLoops_iff {L : Nat} {x : Pt} {e f : Inst} : ∀ {ls : List (Loop D S)},
    seqLoops m L x ls e f ↔ (∃ l ∈ ls, seqLoop m L x l e f) ∨
      ∃ a b, [a, b].Sublist ls ∧ hasLoop m L x a e ∧ hasLoop m L x b f
  | [] => by simp [seqLoops]
  | l :: ls => by
    rw [seqLoops, seqLoops_iff (ls := ls), hasLoops_iff]
    constructor
    · rintro (h | ⟨h1, b, hb, h2⟩ | ⟨a, ha, h⟩ | ⟨a, b, hs, h1, h2⟩)
      · exact Or.inl ⟨l, by simp, h⟩
      · exact Or.inr ⟨l, b, List.Sublist.cons_cons _ (List.singleton_sublist.2 hb), h1, h2⟩
      · exact Or.inl ⟨a, by simp [ha], h⟩
      · exact Or.inr ⟨a, b, hs.cons _, h1, h2⟩
    · rintro (⟨a, ha, h⟩ | ⟨a, b, hs, h1, h2⟩)
      · rcases List.mem_cons.1 ha with rfl | ha
        · exact Or.inl h
        · exact Or.inr (Or.inr (Or.inl ⟨a, ha, h⟩))
      · cases hs with
        | cons _ hs => exact Or.inr (Or.inr (Or.inr ⟨a, b, hs, h1, h2⟩))
        | cons_cons _ hs =>
          exact Or.inr (Or.inl ⟨h1, b, List.singleton_sublist.1 hs, h2⟩)

/-- A relation that holds for the parts of each loop and between loops holds for a list of loops. -/
theorem seqLoops_rel {L : Nat} {x : Pt} {e f : Inst} {R : Prop} {ls : List (Loop D S)}
    (h : seqLoops m L x ls e f) (h1 : ∀ l ∈ ls, seqLoop m L x l e f → R)
    (h2 : ls.Pairwise (fun a b => hasLoop m L x a e → hasLoop m L x b f → R)) : R := by
  rcases seqLoops_iff.1 h with ⟨l, hl, h⟩ | ⟨a, b, hs, ha, hb⟩
  · exact h1 l hl h
  · have := h2.sublist hs
    simp only [List.pairwise_cons, List.mem_singleton, forall_eq] at this
    exact this.1 ha hb

theorem seqLoops_flatten {L : Nat} {x : Pt} {e f : Inst} {R : Prop} : ∀ {gs : List (List (Loop D S))},
    seqLoops m L x gs.flatten e f → (∀ g ∈ gs, seqLoops m L x g e f → R) →
    gs.Pairwise (fun a b => hasLoops m L x a e → hasLoops m L x b f → R) → R
  | [], h, _, _ => by simp [seqLoops] at h
  | g :: gs, h, h1, h2 => by
    rw [List.flatten_cons, seqLoops_append] at h
    rw [List.pairwise_cons] at h2
    rcases h with h | ⟨ha, hb⟩ | h
    · exact h1 g (by simp) h
    · obtain ⟨b, hb, hf⟩ := hasLoops_flatten.1 hb
      exact h2.1 b hb ha hf
    · exact seqLoops_flatten h (fun g' hg' => h1 g' (by simp [hg'])) h2.2

theorem setAt_same {x : Pt} {L : Nat} {v : Int} : setAt x L v (L - 1) = v := by
  simp [setAt]

theorem setAt_other {x : Pt} {L : Nat} {v : Int} {i : Nat} (h : i ≠ L - 1) : setAt x L v i = x i := by
  simp [setAt, h]

theorem setAt_self {x : Pt} {L : Nat} : setAt x L (x (L - 1)) = x := by
  simp [setAt]

theorem visits_mem {L : Nat} {x y : Pt} {d : D} {st : Option S} (h : Visits m L x d st y) :
    m.mem d y := by
  unfold Visits at h
  split at h
  · exact h.2.1
  · exact h.2

/-! ## Traces -/

theorem two_sublist_append {α : Type} {a b : α} {l1 l2 : List α} :
    [a, b].Sublist (l1 ++ l2) ↔ [a, b].Sublist l1 ∨ (a ∈ l1 ∧ b ∈ l2) ∨ [a, b].Sublist l2 := by
  induction l1 with
  | nil => simp
  | cons c l1 ih =>
    rw [List.cons_append, List.sublist_cons_iff, ih, List.sublist_cons_iff]
    constructor
    · rintro ((h | ⟨h1, h2⟩ | h) | ⟨r, h1, h2⟩)
      · exact Or.inl (Or.inl h)
      · exact Or.inr (Or.inl ⟨List.mem_cons_of_mem _ h1, h2⟩)
      · exact Or.inr (Or.inr h)
      · obtain ⟨rfl, rfl⟩ := List.cons.inj h1
        rw [List.singleton_sublist, List.mem_append] at h2
        rcases h2 with h2 | h2
        · exact Or.inl (Or.inr ⟨_, rfl, List.singleton_sublist.2 h2⟩)
        · exact Or.inr (Or.inl ⟨by simp, h2⟩)
    · rintro ((h | ⟨r, h1, h2⟩) | ⟨h1, h2⟩ | h)
      · exact Or.inl (Or.inl h)
      · obtain ⟨rfl, rfl⟩ := List.cons.inj h1
        rw [List.singleton_sublist] at h2
        exact Or.inr ⟨_, rfl, List.singleton_sublist.2 (List.mem_append_left _ h2)⟩
      · rcases List.mem_cons.1 h1 with rfl | h1
        · exact Or.inr ⟨_, rfl, List.singleton_sublist.2 (List.mem_append_right _ h2)⟩
        · exact Or.inl (Or.inr (Or.inl ⟨h1, h2⟩))
      · exact Or.inl (Or.inr (Or.inr h))

theorem mem_blockEvents {d : D} {b : Option Block} {y : Pt} {e : Inst} :
    e ∈ blockEvents m d b y ↔ BlockAt m d b y e := by
  unfold blockEvents BlockAt
  cases b with
  | none => simp
  | some k => cases e; simp [eq_comm]

theorem blockEvents_two {d : D} {b : Option Block} {y : Pt} {e f : Inst} :
    ¬ [e, f].Sublist (blockEvents m d b y) := by
  intro h
  have := h.length_le
  unfold blockEvents at this
  cases b <;> simp at this

/-- The occurrences of the instances at a list of points. -/
def hasPoints (m : Sem D S) (L : Nat) (d : D) (b : Option Block) (inner : List (Loop D S))
    (ys : List Pt) (e : Inst) : Prop :=
  ∃ y ∈ ys, BlockAt m d b y e ∨ hasLoops m (L + 1) y inner e

/-- The order of the instances at a list of points. -/
def seqPoints (m : Sem D S) (L : Nat) (d : D) (b : Option Block) (inner : List (Loop D S))
    (ys : List Pt) (e f : Inst) : Prop :=
  (∃ y ∈ ys, (BlockAt m d b y e ∧ hasLoops m (L + 1) y inner f) ∨ seqLoops m (L + 1) y inner e f) ∨
  ∃ y z, [y, z].Sublist ys ∧ (BlockAt m d b y e ∨ hasLoops m (L + 1) y inner e) ∧
    (BlockAt m d b z f ∨ hasLoops m (L + 1) z inner f)

/-- Executing a loop list as a trace agrees with `hasLoops` and `seqLoops`. -/
theorem trace_adequate {L : Nat} {x : Pt} {ls : List (Loop D S)} {tr : List Inst}
    (h : TraceLoops m L x ls tr) :
    (∀ e, e ∈ tr ↔ hasLoops m L x ls e) ∧ ∀ e f, [e, f].Sublist tr ↔ seqLoops m L x ls e f := by
  refine TraceLoops.rec (m := m)
    (motive_1 := fun L x l tr _ =>
      (∀ e, e ∈ tr ↔ hasLoop m L x l e) ∧ ∀ e f, [e, f].Sublist tr ↔ seqLoop m L x l e f)
    (motive_2 := fun L d b inner ys tr _ =>
      (∀ e, e ∈ tr ↔ hasPoints m L d b inner ys e) ∧
        ∀ e f, [e, f].Sublist tr ↔ seqPoints m L d b inner ys e f)
    (motive_3 := fun L x ls tr _ =>
      (∀ e, e ∈ tr ↔ hasLoops m L x ls e) ∧ ∀ e f, [e, f].Sublist tr ↔ seqLoops m L x ls e f)
    ?_ ?_ ?_ ?_ ?_ h
  · intro L x d o st b inner ys tr hys hord _ ih
    constructor
    · intro e
      rw [ih.1 e, hasLoop_mk]
      simp only [hasPoints, hys]
    · intro e f
      rw [ih.2 e f, seqLoop]
      unfold seqPoints
      simp only [hys]
      have key : ∀ y z, [y, z].Sublist ys ↔ Visits m L x d st y ∧ Visits m L x d st z ∧
          y (L - 1) < z (L - 1) := by
        intro y z
        constructor
        · intro hs
          have hp := hord.sublist hs
          simp only [List.pairwise_cons, List.mem_singleton, forall_eq] at hp
          exact ⟨(hys y).1 (hs.subset (by simp)), (hys z).1 (hs.subset (by simp)), hp.1⟩
        · rintro ⟨hy, hz, hlt⟩
          have hy := (hys y).2 hy
          have hz := (hys z).2 hz
          obtain ⟨a, c, rfl⟩ := List.append_of_mem hy
          rw [List.mem_append, List.mem_cons] at hz
          rcases hz with hz | rfl | hz
          · have := (List.pairwise_append.1 hord).2.2 z hz y (by simp)
            omega
          · omega
          · rw [two_sublist_append]
            exact Or.inr (Or.inr (List.Sublist.cons_cons _ (List.singleton_sublist.2 hz)))
      simp only [key, and_assoc]
  · intro L d b inner
    constructor
    · intro e; simp [hasPoints]
    · intro e f; simp [seqPoints]
  · intro L d b inner y ys t tr _ _ ih1 ih2
    constructor
    · intro e
      rw [List.mem_append, List.mem_append, mem_blockEvents, ih1.1, ih2.1]
      simp [hasPoints]
    · intro e f
      rw [two_sublist_append, two_sublist_append, List.mem_append, mem_blockEvents, ih1.1, ih1.1,
        ih1.2, ih2.1, ih2.2]
      unfold hasPoints seqPoints
      constructor
      · rintro ((h | ⟨h1, h2⟩ | h) | ⟨h1, z, hz, h2⟩ | (⟨z, hz, h⟩ | ⟨z, w, hs, h1, h2⟩))
        · exact absurd h blockEvents_two
        · exact Or.inl ⟨y, by simp, Or.inl ⟨h1, h2⟩⟩
        · exact Or.inl ⟨y, by simp, Or.inr h⟩
        · exact Or.inr ⟨y, z, List.Sublist.cons_cons _ (List.singleton_sublist.2 hz), h1, h2⟩
        · exact Or.inl ⟨z, by simp [hz], h⟩
        · exact Or.inr ⟨z, w, hs.cons _, h1, h2⟩
      · rintro (⟨z, hz, h⟩ | ⟨z, w, hs, h1, h2⟩)
        · rcases List.mem_cons.1 hz with rfl | hz
          · rcases h with h | h
            · exact Or.inl (Or.inr (Or.inl h))
            · exact Or.inl (Or.inr (Or.inr h))
          · exact Or.inr (Or.inr (Or.inl ⟨z, hz, h⟩))
        · rw [List.sublist_cons_iff] at hs
          rcases hs with hs | ⟨r, he, hs⟩
          · exact Or.inr (Or.inr (Or.inr ⟨z, w, hs, h1, h2⟩))
          · obtain ⟨rfl, rfl⟩ := List.cons.inj he
            exact Or.inr (Or.inl ⟨h1, w, List.singleton_sublist.1 hs, h2⟩)
  · intro L x
    simp [hasLoops, seqLoops]
  · intro L x l ls t tr _ _ ih1 ih2
    constructor
    · intro e
      rw [List.mem_append, ih1.1, ih2.1, hasLoops]
    · intro e f
      rw [two_sublist_append, ih1.1, ih1.2, ih2.1, ih2.2, seqLoops]

end Verif.Loop
