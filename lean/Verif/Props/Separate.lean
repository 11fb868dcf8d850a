import Verif.Model.Loop
import Verif.Model.FinDom

/-!
# C17 and C18: splitting unions and separating overlapping loops

`SetLaws` is what is assumed about the set operations of `source/isl/domain.c`.
-/

namespace Verif.Props.Separate

open Verif.Loop

variable {D S C P : Type}

/-- What is assumed about the set operations (isl), for a membership relation `mem` of points `P` in
domains `D`.  `cloog_domain_lazy_equal` and `cloog_domain_lazy_disjoint` may answer `0` at will. -/
structure SetLaws (o : DomOps D S C) (mem : D → P → Prop) : Prop where
  isEmpty : ∀ d, o.isEmpty d = true → ∀ x, ¬ mem d x
  simplifyUnion : ∀ d x, mem (o.simplifyUnion d) x ↔ mem d x
  cutFirst : ∀ d x, mem d x ↔ mem (o.cutFirst d).1 x ∨ mem (o.cutFirst d).2 x
  cutConvex : ∀ d, o.isConvex (o.cutFirst d).1 = true
  inter : ∀ a b x, mem (o.inter a b) x ↔ mem a x ∧ mem b x
  union : ∀ a b x, mem (o.union a b) x ↔ mem a x ∨ mem b x
  diff : ∀ a b x, mem (o.diff a b) x ↔ mem a x ∧ ¬ mem b x
  empty : ∀ d x, ¬ mem (o.empty d) x
  lazyEqual : ∀ a b, o.lazyEqual a b = true → ∀ x, mem a x ↔ mem b x
  lazyDisjoint : ∀ a b, o.lazyDisjoint a b = true → ∀ x, ¬ (mem a x ∧ mem b x)

/-- Two loops have no common point. -/
def Disj (mem : D → P → Prop) (a b : Loop D S) : Prop := ∀ x, ¬ (mem a.dom x ∧ mem b.dom x)

open Classical in
/-- Specification: the inner loops that are executed at the point `x`, in order. -/
noncomputable def flow (mem : D → P → Prop) (ls : List (Loop D S)) (x : P) : List (Loop D S) :=
  ls.flatMap (fun l => if mem l.dom x then l.inner else [])

variable {o : DomOps D S C} {mem : D → P → Prop}

theorem flow_nil (x : P) : flow mem ([] : List (Loop D S)) x = [] := rfl

theorem flow_append (a b : List (Loop D S)) (x : P) :
    flow mem (a ++ b) x = flow mem a x ++ flow mem b x := by
  simp [flow]

theorem flow_none {ls : List (Loop D S)} {x : P} (h : ∀ l ∈ ls, ¬ mem l.dom x) :
    flow mem ls x = [] := by
  unfold flow
  rw [List.flatMap_eq_nil_iff]
  intro l hl
  rw [if_neg (h l hl)]

/-- On disjoint loops the one that contains the point decides. -/
theorem flow_one {ls : List (Loop D S)} {x : P} (hd : ls.Pairwise (Disj mem)) {l : Loop D S}
    (hl : l ∈ ls) (hx : mem l.dom x) : flow mem ls x = l.inner := by
  induction ls with
  | nil => simp at hl
  | cons a ls ih =>
    rw [List.pairwise_cons] at hd
    have e : flow mem (a :: ls) x = flow mem [a] x ++ flow mem ls x := by
      rw [← flow_append]; rfl
    rw [e]
    rcases List.mem_cons.1 hl with rfl | hl'
    · rw [flow_none (fun m hm hmx => hd.1 m hm x ⟨hx, hmx⟩)]
      simp [flow, hx]
    · rw [ih hd.2 hl', flow_none (fun m hm hmx => ?_), List.nil_append]
      simp only [List.mem_singleton] at hm
      subst hm
      exact hd.1 l hl' x ⟨hmx, hx⟩

theorem flatMapM_spec {α β : Type} {f : α → Option (List β)} :
    ∀ {l : List α} {out : List β}, flatMapM f l = some out →
      ∃ gs : List (List β), out = gs.flatten ∧ List.Forall₂ (fun a g => f a = some g) l gs
  | [], out, h => by
    simp only [flatMapM, Option.some.injEq] at h
    exact ⟨[], by simp [← h], List.Forall₂.nil⟩
  | a :: as, out, h => by
    unfold flatMapM at h
    split at h
    · simp at h
    rename_i bs hbs
    split at h
    · simp at h
    rename_i cs hcs
    obtain ⟨gs, h1, h2⟩ := flatMapM_spec hcs
    simp only [Option.some.injEq] at h
    exact ⟨bs :: gs, by simp [← h, h1], List.Forall₂.cons hbs h2⟩

/-- What splitting one loop gives. -/
structure Split (o : DomOps D S C) (mem : D → P → Prop) (l : Loop D S) (g : List (Loop D S)) :
    Prop where
  convex : ∀ m ∈ g, o.isConvex m.dom = true
  same : ∀ m ∈ g, m.inner = l.inner ∧ m.block = l.block
  disj : g.Pairwise (Disj mem)
  cover : ∀ x, mem l.dom x ↔ ∃ m ∈ g, mem m.dom x

theorem splitRest_spec (L : SetLaws o mem) {rec_ : Loop D S → Option (List (Loop D S))}
    (hrec : ∀ l g, rec_ l = some g → Split o mem l g) (b : Option Block)
    (inner : List (Loop D S)) :
    ∀ (fuel : Nat) (rest seen : D) (g : List (Loop D S)),
      splitRest o rec_ b inner fuel rest seen = some g →
      (∀ m ∈ g, o.isConvex m.dom = true) ∧ (∀ m ∈ g, m.inner = inner ∧ m.block = b) ∧
      g.Pairwise (Disj mem) ∧ ∀ x, (mem rest x ∧ ¬ mem seen x) ↔ ∃ m ∈ g, mem m.dom x := by
  intro fuel
  induction fuel with
  | zero => intro rest seen g h; simp [splitRest] at h
  | succ fuel ih =>
    intro rest seen g h
    unfold splitRest at h
    have hcut := L.cutFirst rest
    split at h
    · rename_i he
      simp only [Option.some.injEq] at h
      subst h
      simp only [List.not_mem_nil, false_implies, implies_true, List.Pairwise.nil, false_and,
        exists_false, iff_false, not_and, true_and]
      intro x hx; exact absurd hx (L.isEmpty _ he x)
    split at h
    · rename_i he
      obtain ⟨h1, h2, h3, h4⟩ := ih _ _ _ h
      refine ⟨h1, h2, h3, fun x => ?_⟩
      rw [← h4 x]
      have hne := L.isEmpty _ he x
      rw [L.diff] at hne
      constructor
      · rintro ⟨hr, hs⟩
        rcases (hcut x).1 hr with hc | hc
        · exact absurd ⟨hc, hs⟩ hne
        · exact ⟨hc, hs⟩
      · rintro ⟨hr, hs⟩; exact ⟨(hcut x).2 (Or.inr hr), hs⟩
    · have hd := L.diff (o.cutFirst rest).1 seen
      generalize hdd : o.diff (o.cutFirst rest).1 seen = d at h hd
      split at h
      · simp at h
      rename_i pieces hp
      have hP : Split o mem (Loop.mk d false none b inner) pieces := by
        split at hp
        · rename_i hcv
          simp only [Option.some.injEq] at hp
          subst hp
          refine ⟨?_, ?_, by simp, ?_⟩
          · intro m hm; simp only [List.mem_singleton] at hm; subst hm; exact hcv
          · intro m hm; simp only [List.mem_singleton] at hm; subst hm; exact ⟨rfl, rfl⟩
          · intro x; simp
        · exact hrec _ _ hp
      have hPc : ∀ x, mem d x ↔ ∃ m ∈ pieces, mem m.dom x := hP.cover
      split at h
      · rename_i he
        simp only [Option.some.injEq] at h
        subst h
        refine ⟨hP.convex, hP.same, hP.disj, fun x => ?_⟩
        rw [← hPc x, hd x, hcut x]
        have := L.isEmpty _ he x
        tauto
      · split at h
        · simp at h
        rename_i more hm
        obtain ⟨h1, h2, h3, h4⟩ := ih _ _ _ hm
        simp only [Option.some.injEq] at h
        subst h
        refine ⟨?_, ?_, ?_, ?_⟩
        · intro m hm; rcases List.mem_append.1 hm with hm | hm
          · exact hP.convex m hm
          · exact h1 m hm
        · intro m hm; rcases List.mem_append.1 hm with hm | hm
          · exact hP.same m hm
          · exact h2 m hm
        · rw [List.pairwise_append]
          refine ⟨hP.disj, h3, ?_⟩
          rintro a ha c hc x ⟨hax, hcx⟩
          have e1 := (hPc x).2 ⟨a, ha, hax⟩
          have e2 := ((h4 x).2 ⟨c, hc, hcx⟩).2
          rw [L.union] at e2
          exact e2 (Or.inr e1)
        · intro x
          have e1 := hPc x
          have e2 := h4 x
          rw [L.union] at e2
          simp only [List.mem_append, or_and_right, exists_or]
          rw [← e1, ← e2, hd x, hcut x]
          tauto

theorem addDisjoint_spec (L : SetLaws o mem) : ∀ (fuel : Nat) (l : Loop D S) (g : List (Loop D S)),
    addDisjoint o fuel l = some g → Split o mem l g := by
  intro fuel
  induction fuel with
  | zero => intro l g h; simp [addDisjoint] at h
  | succ fuel ih =>
    intro l g h
    unfold addDisjoint at h
    split at h
    · rename_i hc
      simp only [Option.some.injEq] at h
      subst h
      refine ⟨?_, ?_, by simp, ?_⟩
      · intro m hm; simp only [List.mem_singleton] at hm; subst hm; exact hc
      · intro m hm; simp only [List.mem_singleton] at hm; subst hm; exact ⟨rfl, rfl⟩
      · intro x; simp
    · split at h
      · simp at h
      rename_i more hm
      obtain ⟨h1, h2, h3, h4⟩ := splitRest_spec L ih l.block l.inner _ _ _ _ hm
      simp only [Option.some.injEq] at h
      subst h
      have hcut := L.cutFirst (o.simplifyUnion l.dom)
      refine ⟨?_, ?_, ?_, ?_⟩
      · intro m hm; rcases List.mem_cons.1 hm with rfl | hm
        · exact L.cutConvex _
        · exact h1 m hm
      · intro m hm; rcases List.mem_cons.1 hm with rfl | hm
        · exact ⟨rfl, rfl⟩
        · exact h2 m hm
      · rw [List.pairwise_cons]
        refine ⟨?_, h3⟩
        rintro c hc x ⟨hx, hcx⟩
        exact ((h4 x).2 ⟨c, hc, hcx⟩).2 hx
      · intro x
        rw [← L.simplifyUnion, hcut x]
        have e := h4 x
        constructor
        · rintro (hx | hx)
          · exact ⟨_, List.mem_cons_self, hx⟩
          · by_cases hf : mem (o.cutFirst (o.simplifyUnion l.dom)).1 x
            · exact ⟨_, List.mem_cons_self, hf⟩
            · obtain ⟨m, hm, hmx⟩ := e.1 ⟨hx, hf⟩
              exact ⟨m, List.mem_cons_of_mem _ hm, hmx⟩
        · rintro ⟨m, hm, hmx⟩
          rcases List.mem_cons.1 hm with rfl | hm
          · exact Or.inl hmx
          · exact Or.inr (e.2 ⟨m, hm, hmx⟩).1

/-- C18.  Whenever `cloog_loop_disjoint` returns, its result is the concatenation of one group of
loops per input loop, in the same order; the loops of a group have convex, pairwise disjoint domains
that together contain exactly the points of the input domain, and each has the inner loops and the
block of the input loop. -/
theorem C18_disjoint (L : SetLaws o mem) (fuel : Nat) (ls out : List (Loop D S))
    (h : disjoint o fuel ls = some out) :
    ∃ groups : List (List (Loop D S)), out = groups.flatten ∧
      List.Forall₂ (fun l g =>
        (∀ m ∈ g, o.isConvex m.dom = true) ∧ (∀ m ∈ g, m.inner = l.inner ∧ m.block = l.block) ∧
        g.Pairwise (fun a b => ∀ x, ¬ (mem a.dom x ∧ mem b.dom x)) ∧
        ∀ x, mem l.dom x ↔ ∃ m ∈ g, mem m.dom x) ls groups := by
  obtain ⟨gs, h1, h2⟩ := flatMapM_spec h
  refine ⟨gs, h1, h2.imp ?_⟩
  intro l g hg
  have := addDisjoint_spec L fuel l g hg
  exact ⟨this.convex, this.same, this.disj, this.cover⟩

theorem flow_split {l : Loop D S} {g : List (Loop D S)} (h : Split o mem l g) (x : P) :
    flow mem g x = flow mem [l] x := by
  by_cases hx : mem l.dom x
  · obtain ⟨m, hm, hmx⟩ := (h.cover x).1 hx
    rw [flow_one h.disj hm hmx, (h.same m hm).1]
    simp [flow, hx]
  · rw [flow_none (fun m hm hmx => hx ((h.cover x).2 ⟨m, hm, hmx⟩)),
      flow_none (by simpa using hx)]

/-- Splitting the loops of a list keeps what is executed, and keeps disjoint loops disjoint. -/
theorem splits_spec {ls : List (Loop D S)} {gs : List (List (Loop D S))}
    (h : List.Forall₂ (Split o mem) ls gs) :
    (∀ x, flow mem gs.flatten x = flow mem ls x) ∧
    (∀ x, (∃ m ∈ gs.flatten, mem m.dom x) ↔ ∃ l ∈ ls, mem l.dom x) ∧
    (ls.Pairwise (Disj mem) → gs.flatten.Pairwise (Disj mem)) ∧
    ∀ m ∈ gs.flatten, o.isConvex m.dom = true := by
  induction h with
  | nil => simp [flow]
  | @cons l g ls gs hg hgs ih =>
    obtain ⟨i1, i2, i3, i4⟩ := ih
    refine ⟨?_, ?_, ?_, ?_⟩
    · intro x
      rw [List.flatten_cons, flow_append, flow_split hg, i1 x, ← flow_append]; rfl
    · intro x
      simp only [List.flatten_cons, List.mem_append, or_and_right, exists_or, i2 x, ← hg.cover x,
        List.mem_cons, exists_eq_left]
    · intro hp
      rw [List.pairwise_cons] at hp
      rw [List.flatten_cons, List.pairwise_append]
      refine ⟨hg.disj, i3 hp.2, ?_⟩
      rintro a ha b hb x ⟨hax, hbx⟩
      obtain ⟨l', hl', hx'⟩ := (i2 x).1 ⟨b, hb, hbx⟩
      exact hp.1 l' hl' x ⟨(hg.cover x).2 ⟨a, ha, hax⟩, hx'⟩
    · intro m hm
      rw [List.flatten_cons] at hm
      rcases List.mem_append.1 hm with hm | hm
      · exact hg.convex m hm
      · exact i4 m hm

theorem combineFrom_flow (L : SetLaws o mem) : ∀ (ls : List (Loop D S)) (a : Loop D S) (x : P),
    flow mem (combineFrom o a ls) x = flow mem (a :: ls) x ∧
    ((∃ m ∈ combineFrom o a ls, mem m.dom x) ↔ ∃ m ∈ a :: ls, mem m.dom x) := by
  intro ls
  induction ls with
  | nil => intro a x; simp [combineFrom]
  | cons b ls ih =>
    intro a x
    unfold combineFrom
    split
    · rename_i he
      have hx := L.lazyEqual _ _ he x
      obtain ⟨h1, h2⟩ := ih (a.setInner (a.inner ++ b.inner)) x
      refine ⟨?_, ?_⟩
      · rw [h1]
        have e1 : ∀ c : Loop D S, flow mem (c :: ls) x = flow mem [c] x ++ flow mem ls x := by
          intro c; rw [← flow_append]; rfl
        have e2 : flow mem (a :: b :: ls) x = flow mem [a] x ++ (flow mem [b] x ++ flow mem ls x) := by
          rw [← flow_append, ← flow_append]; rfl
        rw [e1, e2, ← List.append_assoc]
        congr 1
        by_cases hm : mem a.dom x
        · have hb := hx.1 hm
          simp [flow, hm, hb]
        · have hb : ¬ mem b.dom x := fun h => hm (hx.2 h)
          simp [flow, hm, hb]
      · rw [h2]
        have : (a.setInner (a.inner ++ b.inner)).dom = a.dom := by cases a; rfl
        simp only [List.mem_cons, exists_eq_or_imp, this]
        rw [← hx]; tauto
    · obtain ⟨h1, h2⟩ := ih b x
      refine ⟨?_, ?_⟩
      · have e1 : ∀ l : List (Loop D S), flow mem (a :: l) x = flow mem [a] x ++ flow mem l x := by
          intro l; rw [← flow_append]; rfl
        rw [e1, h1, ← e1]
      · simp only [List.mem_cons, exists_eq_or_imp] at h2 ⊢
        rw [h2]

/-- `cloog_loop_combine` does not change what is executed at a point. -/
theorem combine_flow (L : SetLaws o mem) (ls : List (Loop D S)) (x : P) :
    flow mem (combine o ls) x = flow mem ls x ∧
    ((∃ m ∈ combine o ls, mem m.dom x) ↔ ∃ m ∈ ls, mem m.dom x) := by
  cases ls with
  | nil => simp [combine]
  | cons a ls => exact combineFrom_flow L ls a x

theorem sepInter_spec (L : SetLaws o mem) (q l : Loop D S) :
    (∀ x, (mem q.dom x ∧ mem l.dom x) ↔ ∃ m ∈ (sepInter o q l).toList, mem m.dom x) ∧
    ∀ m ∈ (sepInter o q l).toList, m.inner = q.inner ++ l.inner := by
  unfold sepInter
  split
  · rename_i h
    simp only [Option.toList_none, List.not_mem_nil, false_and, exists_false, iff_false,
      false_implies, implies_true, and_true]
    exact L.lazyDisjoint _ _ h
  · have hd : ∀ x, mem (if o.lazyEqual q.dom l.dom = true then q.dom else o.inter q.dom l.dom) x ↔
        mem q.dom x ∧ mem l.dom x := by
      intro x
      split
      · rename_i he; have := L.lazyEqual _ _ he x; tauto
      · exact L.inter _ _ x
    dsimp only
    generalize (if o.lazyEqual q.dom l.dom = true then q.dom else o.inter q.dom l.dom) = d at hd ⊢
    split
    · rename_i he
      simp only [Option.toList_none, List.not_mem_nil, false_and, exists_false, iff_false,
        false_implies, implies_true, and_true]
      intro x hx; exact L.isEmpty _ he x ((hd x).2 hx)
    · simp only [Option.toList_some, List.mem_singleton, exists_eq_left, forall_eq,
        Loop.dom_mk, Loop.inner_mk, and_true]
      intro x; exact (hd x).symm

theorem sepDiff_spec (L : SetLaws o mem) (q l : Loop D S) :
    (∀ x, (mem q.dom x ∧ ¬ mem l.dom x) ↔ ∃ m ∈ (sepDiff o q l).toList, mem m.dom x) ∧
    ∀ m ∈ (sepDiff o q l).toList, m.inner = q.inner := by
  unfold sepDiff
  have hd : ∀ x, mem (if (sepInter o q l).isNone = true then q.dom
      else if o.lazyEqual q.dom l.dom = true then o.empty q.dom else o.diff q.dom l.dom) x ↔
      mem q.dom x ∧ ¬ mem l.dom x := by
    intro x
    split
    · rename_i hn
      have := (sepInter_spec L q l).1 x
      rw [Option.isNone_iff_eq_none] at hn
      rw [hn] at this
      simp only [Option.toList_none, List.not_mem_nil, false_and, exists_false, iff_false,
        not_and] at this
      tauto
    · split
      · rename_i he
        have := L.lazyEqual _ _ he x
        have := L.empty q.dom x
        tauto
      · exact L.diff _ _ x
  dsimp only
  generalize (if (sepInter o q l).isNone = true then q.dom
      else if o.lazyEqual q.dom l.dom = true then o.empty q.dom else o.diff q.dom l.dom) = d at hd ⊢
  split
  · rename_i he
    simp only [Option.toList_none, List.not_mem_nil, false_and, exists_false, iff_false,
      false_implies, implies_true, and_true]
    intro x hx; exact L.isEmpty _ he x ((hd x).2 hx)
  · simp only [Option.toList_some, List.mem_singleton, exists_eq_left, forall_eq, Loop.dom_mk,
      Loop.inner_mk, and_true]
    intro x; exact (hd x).symm

theorem sepRest_spec (L : SetLaws o mem) (uq : D) (l : Loop D S) :
    (∀ x, (mem l.dom x ∧ ¬ mem uq x) ↔ ∃ m ∈ (sepRest o uq l).toList, mem m.dom x) ∧
    ∀ m ∈ (sepRest o uq l).toList, m.inner = l.inner := by
  unfold sepRest
  have hd : ∀ x, mem (if o.lazyDisjoint l.dom uq = true then l.dom
      else if o.lazyEqual l.dom uq = true then o.empty uq else o.diff l.dom uq) x ↔
      mem l.dom x ∧ ¬ mem uq x := by
    intro x
    split
    · rename_i hn
      have := L.lazyDisjoint _ _ hn x
      tauto
    · split
      · rename_i he
        have := L.lazyEqual _ _ he x
        have := L.empty uq x
        tauto
      · exact L.diff _ _ x
  dsimp only
  generalize (if o.lazyDisjoint l.dom uq = true then l.dom
      else if o.lazyEqual l.dom uq = true then o.empty uq else o.diff l.dom uq) = d at hd ⊢
  split
  · rename_i he
    simp only [Option.toList_none, List.not_mem_nil, false_and, exists_false, iff_false,
      false_implies, implies_true, and_true]
    intro x hx; exact L.isEmpty _ he x ((hd x).2 hx)
  · simp only [Option.toList_some, List.mem_singleton, exists_eq_left, forall_eq, Loop.dom_mk,
      Loop.inner_mk, and_true]
    intro x; exact (hd x).symm

theorem pairwise_toList {α : Type} {R : α → α → Prop} (a : Option α) :
    a.toList.Pairwise R := by cases a <;> simp

/-- One round of the separation: the pieces are disjoint, and each point finds its inner loops
followed by those of the new loop. -/
theorem sepPieces_spec (L : SetLaws o mem) {res : List (Loop D S)} {uq : D} (l : Loop D S)
    (hdisj : res.Pairwise (Disj mem)) (hcov : ∀ x, mem uq x ↔ ∃ q ∈ res, mem q.dom x) :
    (sepPieces o res uq l).Pairwise (Disj mem) ∧
    (∀ x, flow mem (sepPieces o res uq l) x = flow mem res x ++ flow mem [l] x) ∧
    ∀ x, (∃ m ∈ sepPieces o res uq l, mem m.dom x) ↔ (∃ q ∈ res, mem q.dom x) ∨ mem l.dom x := by
  have hmem : ∀ m, m ∈ sepPieces o res uq l ↔
      (∃ q ∈ res, m ∈ (sepInter o q l).toList ∨ m ∈ (sepDiff o q l).toList) ∨
        m ∈ (sepRest o uq l).toList := by
    intro m; simp only [sepPieces, List.mem_append, List.mem_flatMap]
  have hP : (sepPieces o res uq l).Pairwise (Disj mem) := by
    unfold sepPieces
    rw [List.pairwise_append]
    refine ⟨?_, pairwise_toList _, ?_⟩
    · rw [List.pairwise_flatMap]
      refine ⟨?_, ?_⟩
      · intro q _
        rw [List.pairwise_append]
        refine ⟨pairwise_toList _, pairwise_toList _, ?_⟩
        rintro a ha b hb x ⟨hax, hbx⟩
        exact (((sepDiff_spec L q l).1 x).2 ⟨b, hb, hbx⟩).2
          (((sepInter_spec L q l).1 x).2 ⟨a, ha, hax⟩).2
      · refine hdisj.imp ?_
        intro q q' hqq' a ha b hb x ⟨hax, hbx⟩
        have key : ∀ (q : Loop D S) (a : Loop D S), a ∈ (sepInter o q l).toList ++
            (sepDiff o q l).toList → mem a.dom x → mem q.dom x := by
          intro q a ha hax
          rcases List.mem_append.1 ha with ha | ha
          · exact (((sepInter_spec L q l).1 x).2 ⟨a, ha, hax⟩).1
          · exact (((sepDiff_spec L q l).1 x).2 ⟨a, ha, hax⟩).1
        exact hqq' x ⟨key q a ha hax, key q' b hb hbx⟩
    · intro a ha b hb x ⟨hax, hbx⟩
      obtain ⟨q, hq, ha⟩ := List.mem_flatMap.1 ha
      have hqx : mem q.dom x := by
        rcases List.mem_append.1 ha with ha | ha
        · exact (((sepInter_spec L q l).1 x).2 ⟨a, ha, hax⟩).1
        · exact (((sepDiff_spec L q l).1 x).2 ⟨a, ha, hax⟩).1
      exact (((sepRest_spec L uq l).1 x).2 ⟨b, hb, hbx⟩).2 ((hcov x).2 ⟨q, hq, hqx⟩)
  refine ⟨hP, ?_, ?_⟩
  · intro x
    by_cases hq : ∃ q ∈ res, mem q.dom x
    · obtain ⟨q, hq, hqx⟩ := hq
      rw [flow_one hdisj hq hqx]
      by_cases hl : mem l.dom x
      · obtain ⟨m, hm, hmx⟩ := ((sepInter_spec L q l).1 x).1 ⟨hqx, hl⟩
        rw [flow_one hP ((hmem m).2 (Or.inl ⟨q, hq, Or.inl hm⟩)) hmx,
          (sepInter_spec L q l).2 m hm]
        simp [flow, hl]
      · obtain ⟨m, hm, hmx⟩ := ((sepDiff_spec L q l).1 x).1 ⟨hqx, hl⟩
        rw [flow_one hP ((hmem m).2 (Or.inl ⟨q, hq, Or.inr hm⟩)) hmx,
          (sepDiff_spec L q l).2 m hm]
        simp [flow, hl]
    · have hu : ¬ mem uq x := fun h => hq ((hcov x).1 h)
      rw [flow_none (fun q h1 h2 => hq ⟨q, h1, h2⟩), List.nil_append]
      by_cases hl : mem l.dom x
      · obtain ⟨m, hm, hmx⟩ := ((sepRest_spec L uq l).1 x).1 ⟨hl, hu⟩
        rw [flow_one hP ((hmem m).2 (Or.inr hm)) hmx, (sepRest_spec L uq l).2 m hm]
        simp [flow, hl]
      · rw [flow_none (ls := [l]) (by simpa using hl)]
        refine flow_none ?_
        intro m hm hmx
        rcases (hmem m).1 hm with ⟨q, hq', hm | hm⟩ | hm
        · exact hl (((sepInter_spec L q l).1 x).2 ⟨m, hm, hmx⟩).2
        · exact hq ⟨q, hq', (((sepDiff_spec L q l).1 x).2 ⟨m, hm, hmx⟩).1⟩
        · exact hl (((sepRest_spec L uq l).1 x).2 ⟨m, hm, hmx⟩).1
  · intro x
    constructor
    · rintro ⟨m, hm, hmx⟩
      rcases (hmem m).1 hm with ⟨q, hq', hm | hm⟩ | hm
      · exact Or.inl ⟨q, hq', (((sepInter_spec L q l).1 x).2 ⟨m, hm, hmx⟩).1⟩
      · exact Or.inl ⟨q, hq', (((sepDiff_spec L q l).1 x).2 ⟨m, hm, hmx⟩).1⟩
      · exact Or.inr (((sepRest_spec L uq l).1 x).2 ⟨m, hm, hmx⟩).1
    · intro h
      by_cases hq : ∃ q ∈ res, mem q.dom x
      · obtain ⟨q, hq, hqx⟩ := hq
        by_cases hl : mem l.dom x
        · obtain ⟨m, hm, hmx⟩ := ((sepInter_spec L q l).1 x).1 ⟨hqx, hl⟩
          exact ⟨m, (hmem m).2 (Or.inl ⟨q, hq, Or.inl hm⟩), hmx⟩
        · obtain ⟨m, hm, hmx⟩ := ((sepDiff_spec L q l).1 x).1 ⟨hqx, hl⟩
          exact ⟨m, (hmem m).2 (Or.inl ⟨q, hq, Or.inr hm⟩), hmx⟩
      · rcases h with h | hl
        · exact absurd h hq
        · obtain ⟨m, hm, hmx⟩ := ((sepRest_spec L uq l).1 x).1 ⟨hl, fun h => hq ((hcov x).1 h)⟩
          exact ⟨m, (hmem m).2 (Or.inr hm), hmx⟩

theorem sepLoop_spec (L : SetLaws o mem) (fuel : Nat) :
    ∀ (ls done res : List (Loop D S)) (uq : D) (out : List (Loop D S)),
      sepLoop o fuel ls res uq = some out →
      res.Pairwise (Disj mem) → (∀ x, mem uq x ↔ ∃ q ∈ res, mem q.dom x) →
      (∀ x, flow mem res x = flow mem done x) →
      (∀ x, (∃ q ∈ res, mem q.dom x) ↔ ∃ q ∈ done, mem q.dom x) →
      (ls = [] → ∀ m ∈ res, o.isConvex m.dom = true) →
      out.Pairwise (Disj mem) ∧ (∀ x, flow mem out x = flow mem (done ++ ls) x) ∧
      (∀ x, (∃ q ∈ out, mem q.dom x) ↔ ∃ q ∈ done ++ ls, mem q.dom x) ∧
      ∀ m ∈ out, o.isConvex m.dom = true := by
  intro ls
  induction ls with
  | nil =>
    intro done res uq out h h1 h2 h3 h4 h5
    simp only [sepLoop, Option.some.injEq] at h
    subst h
    simp only [List.append_nil]
    exact ⟨h1, h3, h4, h5 rfl⟩
  | cons l ls ih =>
    intro done res uq out h h1 h2 h3 h4 h5
    unfold sepLoop at h
    split at h
    · simp at h
    rename_i res' hres'
    obtain ⟨p1, p2, p3⟩ := sepPieces_spec L l h1 h2
    obtain ⟨gs, g1, g2⟩ := flatMapM_spec hres'
    obtain ⟨s1, s2, s3, s4⟩ := splits_spec (o := o) (mem := mem)
      (g2.imp (fun _ _ hg => addDisjoint_spec L fuel _ _ hg))
    rw [← g1] at s1 s2 s3 s4
    have := ih (done ++ [l]) res' _ out h (s3 p1) ?_ ?_ ?_ (fun _ => s4)
    · simpa using this
    · intro x
      rw [L.union, s2 x, p3 x, h2 x]
    · intro x
      rw [s1 x, p2 x, h3 x, ← flow_append]
    · intro x
      rw [s2 x, p3 x, h4 x]
      simp only [List.mem_append, List.mem_singleton, or_and_right, exists_or, exists_eq_left]

/-- C17.  Whenever `cloog_loop_separate` returns: the domains of the resulting loops are convex and
pairwise disjoint, they contain the same points as the input domains together, and at every point the
inner loops of the resulting loops that contain it are exactly the inner loops of the input loops that
contain it, in the order of the input and with the same multiplicity. -/
theorem C17_separate (L : SetLaws o mem) (fuel : Nat) (ls out : List (Loop D S))
    (h : separate o fuel ls = some out) :
    (∀ m ∈ out, o.isConvex m.dom = true) ∧
    out.Pairwise (fun a b => ∀ x, ¬ (mem a.dom x ∧ mem b.dom x)) ∧
    (∀ x, (∃ m ∈ out, mem m.dom x) ↔ ∃ l ∈ ls, mem l.dom x) ∧
    (∀ x, flow mem out x = flow mem ls x) ∧
    ∀ m ∈ out, ∀ x, mem m.dom x → m.inner = flow mem ls x := by
  have main : (∀ m ∈ out, o.isConvex m.dom = true) ∧ out.Pairwise (Disj mem) ∧
      (∀ x, (∃ m ∈ out, mem m.dom x) ↔ ∃ l ∈ ls, mem l.dom x) ∧
      (∀ x, flow mem out x = flow mem ls x) := by
    have hc := combine_flow L ls
    unfold separate at h
    split at h
    · rename_i he
      rw [he] at hc
      simp only [Option.some.injEq] at h
      subst h
      exact ⟨by simp, by simp, fun x => (hc x).2, fun x => (hc x).1⟩
    · rename_i l he
      rw [he] at hc
      obtain ⟨gs, g1, g2⟩ := flatMapM_spec (show flatMapM (addDisjoint o fuel) [l] = some out from h)
      obtain ⟨s1, s2, s3, s4⟩ := splits_spec (o := o) (mem := mem)
        (g2.imp (fun _ _ hg => addDisjoint_spec L fuel _ _ hg))
      rw [← g1] at s1 s2 s3 s4
      exact ⟨s4, s3 (by simp), fun x => (s2 x).trans (hc x).2, fun x => (s1 x).trans (hc x).1⟩
    · rename_i l ls' hne he
      rw [he] at hc
      obtain ⟨r1, r2, r3, r4⟩ := sepLoop_spec L fuel ls' [l] _ _ out h (by simp)
        (by intro x; simp)
        (by intro x; rfl)
        (by intro x; simp)
        (by intro e; exact absurd e hne)
      exact ⟨r4, r1, fun x => (r3 x).trans (hc x).2, fun x => (r2 x).trans (hc x).1⟩
  obtain ⟨m1, m2, m3, m4⟩ := main
  refine ⟨m1, m2, m3, m4, ?_⟩
  intro m hm x hx
  rw [← m4 x, flow_one m2 hm hx]

/-- The assumptions can be met: finite sets of vectors. -/
theorem finDom_laws : SetLaws FinDom.ops FinDom.mem where
  isEmpty d h x hx := by
    simp only [FinDom.ops, List.isEmpty_iff] at h
    simp [FinDom.mem, h] at hx
  simplifyUnion d x := Iff.rfl
  cutFirst d x := by
    simp only [FinDom.ops, FinDom.mem, FinDom.FD.all, ← List.mem_append, ← List.flatten_append,
      List.take_append_drop]
  cutConvex d := by simp [FinDom.ops]
  inter a b x := by
    show FinDom.mem (a.filter _) x ↔ _
    rw [FinDom.mem_filter]; simp [FinDom.mem]
  union a b x := by simp [FinDom.ops, FinDom.mem, FinDom.FD.all]
  diff a b x := by
    show FinDom.mem (a.filter _) x ↔ _
    rw [FinDom.mem_filter]; simp [FinDom.mem]
  empty d x := by simp [FinDom.ops, FinDom.mem, FinDom.FD.all]
  lazyEqual a b h x := by
    simp only [FinDom.ops, decide_eq_true_eq] at h; rw [h]
  lazyDisjoint a b h x := by
    simp only [FinDom.ops, Bool.or_eq_true, List.isEmpty_iff] at h
    rintro ⟨ha, hb⟩
    rcases h with h | h
    · simp [FinDom.mem, h] at ha
    · simp [FinDom.mem, h] at hb

section Examples
open FinDom

/-- A leaf loop for statement `n`. -/
def leaf (n : Nat) : Loop FD Unit := .mk ⟨1, []⟩ false none (some ⟨[n], []⟩) []

/-- `{0, 1, 2}` for statement 1, a union `{1, 2} ∪ {2, 3}` for statement 2 and `{2}` for statement 3. -/
def threeLoops : List (Loop FD Unit) :=
  [.mk ⟨1, [[[0], [1], [2]]]⟩ false none none [leaf 1],
   .mk ⟨1, [[[1], [2]], [[2], [3]]]⟩ false none none [leaf 2],
   .mk ⟨1, [[[2]]]⟩ false none none [leaf 3]]

/-- domain vectors and statements of a list of loops. -/
def brief (ls : List (Loop FD Unit)) : List (List (List Int) × List (List Nat)) :=
  ls.map (fun l => (l.dom.all, l.inner.map (fun i => match i.block with
    | some b => b.stmts
    | none => [])))

/-- The separation of the three loops: five pieces, with the statements of each point. -/
example : (separate ops 10 threeLoops).map brief =
    some [([[2]], [[1], [2], [3]]), ([[1]], [[1], [2]]), ([[0]], [[1]]), ([[3]], [[2]])] := by
  decide

/-- The union of the second loop is split into disjoint parts. -/
example : (disjoint ops 10 threeLoops).map brief =
    some [([[0], [1], [2]], [[1]]), ([[1], [2]], [[2]]), ([[3]], [[2]]), ([[2]], [[3]])] := by
  decide

end Examples

end Verif.Props.Separate
