import Verif.Props.Program

/-!
# C38 and C50: blocking after scattering

`cloog_loop_block` keeps every statement and its place in the list (C38).  It does not keep the order
of the execution dates in general (C50): two programs where it breaks the order, and a condition under
which it keeps it.
-/

namespace Verif.Props.LoopBlock
open Verif.Program Verif.Props.Program

/-- The points of the domains after scattering: the values of the scattering dimensions that are not
    scalar, then the values of the original iterators. -/
abbrev Pt := List Int

/-- What the questions asked about domains mean: only their positive answers are trusted. -/
structure SLaws {D S : Type} (o : Ops D S) (mem : D → Pt → Prop) : Prop where
  lazyEqual : ∀ d e, o.lazyEqual d e = true → ∀ x, mem d x ↔ mem e x
  isConst : ∀ d k, o.isConst d k = true → ∀ x y, mem d x → mem d y → x[k]? = y[k]?

/-- The date of an instance: the scalar values put back among the coordinates. -/
def sdate {D : Type} (scaldims : List Nat) (a : SItem D) (x : Pt) : List Int :=
  interleave (scaldims.map fun n => decide (n ≠ 0)) a.scal x

variable {D S : Type} {o : Ops D S} {mem : D → Pt → Prop}

/-- The order of dates is kept by a list of groups: `a` is number `k` of group number `g`. -/
def KeepsOrder (mem : D → Pt → Prop) (scaldims : List Nat) (groups : List (List (SItem D)))
    (blocks : List (SItem D)) : Prop :=
  ∀ (g h k l : Nat) (G H : List (SItem D)) (A B a b : SItem D) (x y : Pt),
    groups[g]? = some G → groups[h]? = some H → blocks[g]? = some A → blocks[h]? = some B →
    G[k]? = some a → H[l]? = some b → mem a.dom x → mem b.dom y →
    before (sdate scaldims a x) (sdate scaldims b y) →
      before (sdate scaldims A x) (sdate scaldims B y) ∨ (g = h ∧ x = y ∧ k < l)

/-- `groups` is how the statements were distributed to the loops `out`. -/
structure Distributes (mem : D → Pt → Prop) (items : List (SItem D)) (groups : List (List (SItem D)))
    (out : List (SItem D)) : Prop where
  flatten : groups.flatten = items
  nonempty : ∀ G ∈ groups, G ≠ []
  stmts : out.map SItem.stmts = groups.map (fun G => G.flatMap SItem.stmts)
  dom : ∀ (g : Nat) (G : List (SItem D)) (A : SItem D), groups[g]? = some G → out[g]? = some A →
    ∀ a ∈ G, ∀ x, mem A.dom x ↔ mem a.dom x

/-! ## Lemmas -/

theorem before_irrefl : ∀ s : List Int, ¬ before s s
  | [], h => h
  | a :: s, h => by
    rcases h with h | ⟨_, h⟩
    · omega
    · exact before_irrefl s h

theorem before_trans : ∀ {s t u : List Int}, before s t → before t u → before s u
  | [], [], _, h, _ => h.elim
  | [], _ :: _, [], _, h => h.elim
  | [], _ :: _, _ :: _, _, _ => trivial
  | _ :: _, [], _, h, _ => h.elim
  | _ :: _, _ :: _, [], _, h => h.elim
  | a :: s, b :: t, c :: u, h1, h2 => by
    rcases h1 with h1 | ⟨rfl, h1⟩
    · rcases h2 with h2 | ⟨rfl, h2⟩
      · exact .inl (by omega)
      · exact .inl h1
    · rcases h2 with h2 | ⟨rfl, h2⟩
      · exact .inl h2
      · exact .inr ⟨rfl, before_trans h1 h2⟩

theorem scalCmp_cases : ∀ (s t : List Int), (scalCmp s t < 0 ↔ before s t) ∧ (scalCmp s t = 0 ↔ s = t)
  | [], [] => by simp [scalCmp, before]
  | [], _ :: _ => by simp [scalCmp, before]
  | _ :: _, [] => by simp [scalCmp, before]
  | a :: s, b :: t => by
    have := scalCmp_cases s t
    simp only [scalCmp, before]
    by_cases h1 : a < b
    · simp [h1]; omega
    · by_cases h2 : b < a
      · simp [h1, h2]; omega
      · have h3 : a = b := by omega
        subst h3
        simp [this.1, this.2]

/-- Not after. -/
def le (s t : List Int) : Prop := before s t ∨ s = t

theorem scalCmp_le (s t : List Int) : scalCmp s t ≤ 0 ↔ le s t := by
  obtain ⟨h1, h2⟩ := scalCmp_cases s t
  unfold le
  rw [← h1, ← h2]; omega

theorem before_le {s t u : List Int} (h : before s t) (h' : le t u) : before s u := by
  rcases h' with h' | rfl
  · exact before_trans h h'
  · exact h

theorem le_before {s t u : List Int} (h : le s t) (h' : before t u) : before s u := by
  rcases h with h | rfl
  · exact before_trans h h'
  · exact h'

theorem le_trans' {s t u : List Int} (h : le s t) (h' : le t u) : le s u := by
  rcases h with h | rfl
  · exact .inl (before_le h h')
  · exact h'

theorem sorted_of {ls : List (SItem D)} (h : nondecreasing ls = true) :
    ls.Pairwise (fun a b => le a.scal b.scal) := by
  induction ls with
  | nil => simp
  | cons a ls ih =>
    cases ls with
    | nil => simp
    | cons b ls =>
      simp only [nondecreasing, Bool.and_eq_true, decide_eq_true_eq, scalCmp_le] at h
      have i := ih h.2
      refine List.pairwise_cons.2 ⟨?_, i⟩
      intro c hc
      rcases List.mem_cons.1 hc with rfl | hc
      · exact h.1
      · exact le_trans' h.1 ((List.pairwise_cons.1 i).1 c hc)

theorem findEnd_spec (sd : List Nat) (b : SItem D) : ∀ (rest : List (SItem D)) (after : Bool),
    (findEnd o sd b after rest).1 ++ (findEnd o sd b after rest).2.1 = rest ∧
    (∀ e ∈ (findEnd o sd b after rest).1, equalPrefix o sd b e = true ∧ o.lazyEqual b.dom e.dom = true) ∧
    (∀ e, (findEnd o sd b after rest).1.getLast? = some e → (findEnd o sd b after rest).2.2 = true →
      lastOrLess e (findEnd o sd b after rest).2.1 = true)
  | [], after => by simp [findEnd]
  | e :: rest, after => by
    unfold findEnd
    split_ifs with hc
    · obtain ⟨i1, i2, i3⟩ := findEnd_spec sd b rest (lastOrLess e rest)
      simp only [Bool.and_eq_true] at hc
      refine ⟨by simp [i1], ?_, ?_⟩
      · intro f hf
        rcases List.mem_cons.1 hf with rfl | hf
        · exact hc
        · exact i2 f hf
      · intro f hf ha
        simp only at hf ha ⊢
        cases hg : (findEnd o sd b (lastOrLess e rest) rest).1 with
        | nil =>
          rw [hg] at hf i1
          simp only [List.getLast?_singleton, Option.some.injEq] at hf
          subst hf
          simp only [List.nil_append] at i1
          rw [i1]
          cases rest with
          | nil => simpa [findEnd] using ha
          | cons r rest =>
            unfold findEnd at ha hg
            by_cases hc' : (equalPrefix o sd b r && o.lazyEqual b.dom r.dom) = true
            · rw [if_pos hc'] at hg; simp at hg
            · rw [if_neg hc'] at ha; exact ha
        | cons g gs =>
          rw [hg] at hf
          apply i3 f _ ha
          rw [hg]
          simpa [List.getLast?_cons_cons] using hf
    · simp

/-- The loop a group becomes. -/
def blockOf (p : SItem D × List (SItem D)) : SItem D :=
  { p.1 with stmts := (p.1 :: p.2).flatMap SItem.stmts }

theorem lastOrLess_before {a b : SItem D} {rest : List (SItem D)} (h : lastOrLess a (b :: rest) = true) :
    before a.scal b.scal := by
  simp only [lastOrLess, decide_eq_true_eq] at h
  exact (scalCmp_cases _ _).1.1 h

theorem loopBlockGo_spec (sd : List Nat) : ∀ (fuel : Nat) (flag : Bool) (ls : List (SItem D)),
    ls.length ≤ fuel → ls.Pairwise (fun a b => le a.scal b.scal) →
    ∃ gs : List (SItem D × List (SItem D)),
      loopBlockGo o sd fuel flag ls = gs.map blockOf ∧
      gs.flatMap (fun p => p.1 :: p.2) = ls ∧
      (∀ p ∈ gs, ∀ e ∈ p.2, equalPrefix o sd p.1 e = true ∧ o.lazyEqual p.1.dom e.dom = true) ∧
      (flag = false → ∀ p, gs.head? = some p → p.2 = []) ∧
      gs.Pairwise (fun p q => (p.2 ≠ [] ∨ q.2 ≠ []) →
        ∀ a ∈ p.1 :: p.2, ∀ b ∈ q.1 :: q.2, before a.scal b.scal)
  | 0, flag, ls, hl, _ => by
    have : ls = [] := by simpa using hl
    subst this
    exact ⟨[], by simp [loopBlockGo]⟩
  | fuel + 1, flag, [], _, _ => ⟨[], by cases flag <;> simp [loopBlockGo]⟩
  | fuel + 1, flag, b :: rest, hl, hs => by
    have hrest : rest.length ≤ fuel := by simpa using hl
    obtain ⟨hs1, hs2⟩ := List.pairwise_cons.1 hs
    have single : loopBlockGo o sd (fuel + 1) flag (b :: rest)
          = b :: loopBlockGo o sd fuel (lastOrLess b rest) rest →
        ∃ gs : List (SItem D × List (SItem D)),
          loopBlockGo o sd (fuel + 1) flag (b :: rest) = gs.map blockOf ∧
          gs.flatMap (fun p => p.1 :: p.2) = b :: rest ∧
          (∀ p ∈ gs, ∀ e ∈ p.2, equalPrefix o sd p.1 e = true ∧ o.lazyEqual p.1.dom e.dom = true) ∧
          (flag = false → ∀ p, gs.head? = some p → p.2 = []) ∧
          gs.Pairwise (fun p q => (p.2 ≠ [] ∨ q.2 ≠ []) →
            ∀ a ∈ p.1 :: p.2, ∀ b ∈ q.1 :: q.2, before a.scal b.scal) := by
      intro he
      obtain ⟨gs, e1, e2, e3, e4, e5⟩ := loopBlockGo_spec sd fuel (lastOrLess b rest) rest hrest hs2
      refine ⟨(b, []) :: gs, ?_, by simp [e2], ?_, by simp, ?_⟩
      · rw [he, e1]; simp [blockOf]
      · intro p hp
        rcases List.mem_cons.1 hp with rfl | hp
        · simp
        · exact e3 p hp
      · refine List.pairwise_cons.2 ⟨?_, e5⟩
        intro q hq hne a ha c hc
        simp only [List.mem_singleton] at ha
        subst ha
        have hq2 : q.2 ≠ [] := by simpa using hne
        cases gs with
        | nil => simp at hq
        | cons p0 gs =>
          have hr : ∃ t, rest = p0.1 :: t := by
            rw [← e2]; exact ⟨p0.2 ++ gs.flatMap (fun p => p.1 :: p.2), by simp⟩
          obtain ⟨t, ht⟩ := hr
          have hc0 : c ∈ rest := by
            rw [← e2]; exact List.mem_flatMap.2 ⟨q, hq, hc⟩
          rcases List.mem_cons.1 hq with rfl | hq'
          · by_cases hf : lastOrLess a rest = true
            · rw [ht] at hf
              have h1 := lastOrLess_before hf
              have h2 : le q.1.scal c.scal := by
                rw [ht] at hs2 hc0
                rcases List.mem_cons.1 hc0 with rfl | hc0
                · exact .inr rfl
                · exact (List.pairwise_cons.1 hs2).1 c hc0
              exact before_le h1 h2
            · exact absurd (e4 (by simpa using hf) q rfl) hq2
          · have h1 : before p0.1.scal c.scal :=
              (List.pairwise_cons.1 e5).1 q hq' (.inr hq2) p0.1 List.mem_cons_self c hc
            exact le_before (hs1 p0.1 (by rw [ht]; exact List.mem_cons_self)) h1
    cases flag with
    | false => exact single (by simp [loopBlockGo])
    | true =>
      obtain ⟨f1, f2, f3⟩ := findEnd_spec (o := o) sd b rest (lastOrLess b rest)
      by_cases hc : (!(findEnd o sd b (lastOrLess b rest) rest).1.isEmpty &&
          (findEnd o sd b (lastOrLess b rest) rest).2.2) = true
      · have he : loopBlockGo o sd (fuel + 1) true (b :: rest)
            = blockOf (b, (findEnd o sd b (lastOrLess b rest) rest).1) ::
              loopBlockGo o sd fuel (lastOrLess b (findEnd o sd b (lastOrLess b rest) rest).2.1)
                (findEnd o sd b (lastOrLess b rest) rest).2.1 := by
          simp only [loopBlockGo]
          rw [if_pos hc]
          simp [blockOf]
        simp only [Bool.and_eq_true, Bool.not_eq_true', List.isEmpty_eq_false_iff] at hc
        generalize (findEnd o sd b (lastOrLess b rest) rest).1 = g at *
        generalize (findEnd o sd b (lastOrLess b rest) rest).2.2 = af at *
        generalize (findEnd o sd b (lastOrLess b rest) rest).2.1 = r at *
        obtain ⟨hg, haf⟩ := hc
        have hr : r.Pairwise (fun a b => le a.scal b.scal) := by
          rw [← f1] at hs2; exact (List.pairwise_append.1 hs2).2.1
        have hlr : r.length ≤ fuel := by
          have := congrArg List.length f1; simp at this; omega
        obtain ⟨gs, e1, e2, e3, e4, e5⟩ := loopBlockGo_spec sd fuel (lastOrLess b r) r hlr hr
        refine ⟨(b, g) :: gs, by rw [he, e1]; rfl, by simp [e2, f1], ?_, by simp, ?_⟩
        · intro p hp
          rcases List.mem_cons.1 hp with rfl | hp
          · exact f2
          · exact e3 p hp
        · refine List.pairwise_cons.2 ⟨?_, e5⟩
          intro q hq _ a ha c hc
          have hcr : c ∈ r := by rw [← e2]; exact List.mem_flatMap.2 ⟨q, hq, hc⟩
          have hlast := f3 (g.getLast hg) (List.getLast?_eq_some_getLast hg) haf
          have hmem := List.getLast_mem hg
          have h1 : before (g.getLast hg).scal c.scal := by
            cases r with
            | nil => simp at hcr
            | cons r0 r =>
              have h0 := lastOrLess_before hlast
              rcases List.mem_cons.1 hcr with rfl | hcr
              · exact h0
              · exact before_le h0 ((List.pairwise_cons.1 hr).1 c hcr)
          have h2 : le a.scal (g.getLast hg).scal := by
            rcases List.mem_cons.1 ha with rfl | ha
            · exact hs1 _ (by rw [← f1]; exact List.mem_append_left _ hmem)
            · rw [← f1] at hs2
              have hg' := (List.pairwise_append.1 hs2).1
              obtain ⟨i, hi, rfl⟩ := List.getElem_of_mem ha
              simp only at hi
              rw [List.getLast_eq_getElem]
              by_cases hii : i = g.length - 1
              · subst hii; exact .inr rfl
              · exact List.pairwise_iff_getElem.1 hg' i (g.length - 1) hi (by omega) (by omega)
          exact le_before h2 h1
      · exact single (by simp only [loopBlockGo]; rw [if_neg hc])

/-- The groups of `cloog_loop_block`. -/
theorem loopBlock_groups (hasScal : Bool) (sd : List Nat) (ls : List (SItem D)) :
    ∃ gs : List (SItem D × List (SItem D)),
      loopBlock o hasScal sd ls = gs.map blockOf ∧
      gs.flatMap (fun p => p.1 :: p.2) = ls ∧
      (∀ p ∈ gs, ∀ e ∈ p.2, equalPrefix o sd p.1 e = true ∧ o.lazyEqual p.1.dom e.dom = true) ∧
      ((∀ p ∈ gs, p.2 = []) ∨ (ls.Pairwise (fun a b => le a.scal b.scal) ∧
        gs.Pairwise (fun p q => (p.2 ≠ [] ∨ q.2 ≠ []) →
          ∀ a ∈ p.1 :: p.2, ∀ b ∈ q.1 :: q.2, before a.scal b.scal))) := by
  have triv : ∃ gs : List (SItem D × List (SItem D)),
      ls = gs.map blockOf ∧
      gs.flatMap (fun p => p.1 :: p.2) = ls ∧
      (∀ p ∈ gs, ∀ e ∈ p.2, equalPrefix o sd p.1 e = true ∧ o.lazyEqual p.1.dom e.dom = true) ∧
      ((∀ p ∈ gs, p.2 = []) ∨ (ls.Pairwise (fun a b => le a.scal b.scal) ∧
        gs.Pairwise (fun p q => (p.2 ≠ [] ∨ q.2 ≠ []) →
          ∀ a ∈ p.1 :: p.2, ∀ b ∈ q.1 :: q.2, before a.scal b.scal))) := by
    have hall : ∀ p ∈ ls.map (fun a => (a, ([] : List (SItem D)))), p.2 = [] := by
      intro p hp
      obtain ⟨a, _, rfl⟩ := List.mem_map.1 hp
      rfl
    refine ⟨ls.map (fun a => (a, [])), ?_, ?_, ?_, .inl hall⟩
    · simp [blockOf, Function.comp_def]
    · simp [List.flatMap_map]
    · intro p hp e he
      rw [hall p hp] at he
      simp at he
  unfold loopBlock
  split_ifs with h1 h2 h3
  · exact triv
  · exact triv
  · exact triv
  · have hs := sorted_of (by simpa using h3 : nondecreasing ls = true)
    obtain ⟨gs, e1, e2, e3, _, e5⟩ := loopBlockGo_spec (o := o) sd ls.length true ls (Nat.le_refl _) hs
    exact ⟨gs, e1, e2, e3, .inr ⟨hs, e5⟩⟩

/-! ## Theorems -/

/-- **C38**, after scattering: `cloog_loop_block` cuts the list into groups of neighbours with the same
    domain, without loss, duplication or reordering; each group becomes one loop whose block has the
    statements of the group in order. -/
theorem C38_loop_block (W : SLaws o mem) (hasScal : Bool) (sd : List Nat) (ls : List (SItem D)) :
    ∃ groups, Distributes mem ls groups (loopBlock o hasScal sd ls) := by
  obtain ⟨gs, e1, e2, e3, _⟩ := loopBlock_groups (o := o) hasScal sd ls
  refine ⟨gs.map (fun p => p.1 :: p.2), ?_, ?_, ?_, ?_⟩
  · rw [← List.flatMap_def, e2]
  · intro G hG
    obtain ⟨p, _, rfl⟩ := List.mem_map.1 hG
    simp
  · rw [e1]; simp [blockOf, Function.comp_def]
  · intro g G A h1 h2 a ha x
    rw [e1] at h2
    rw [List.getElem?_map, Option.map_eq_some_iff] at h1 h2
    obtain ⟨p, hp, rfl⟩ := h1
    obtain ⟨p', hp', rfl⟩ := h2
    rw [hp] at hp'
    simp only [Option.some.injEq] at hp'
    subst hp'
    simp only [blockOf]
    rcases List.mem_cons.1 ha with rfl | ha
    · exact Iff.rfl
    · exact W.lazyEqual _ _ (e3 p (List.mem_of_getElem? hp) a ha).2 x

/-- Operations on explicit finite sets of points. -/
def finOps : Ops (List Pt) Unit where
  lazyEqual d e := decide (d = e)
  nScat _ := 0
  fixedDelta _ _ _ := none
  injective _ := false
  isScalar _ _ := none
  erase s _ := s
  scatter d _ := d
  isConst d i := decide (∀ x ∈ d, ∀ y ∈ d, x[i]? = y[i]?)

theorem finLaws : SLaws finOps (fun d x => x ∈ d) where
  lazyEqual d e h x := by simp only [finOps, decide_eq_true_eq] at h; rw [h]
  isConst d k h x y hx hy := by simp only [finOps, decide_eq_true_eq] at h; exact h x hx y hy

/-- Two statements on the domain `0 ≤ i ≤ 1`; all instances of the first at date 0, of the second at
    date 1. -/
def twoPhases : List (SItem (List Pt)) := [⟨[[0], [1]], [0], [1]⟩, ⟨[[0], [1]], [1], [2]⟩]

example : (loopBlock finOps true [1] twoPhases).map SItem.stmts = [[1, 2]] := by decide

/-- Statement 1 at dates `(0, i, 0)` for `6 ≤ i ≤ 7`, statement 2 at date `(0, 5, 1)`, statement 3 at
    date `(1, 5, 1)`.  No two instances share a date. -/
def crossing : List (SItem (List Pt)) :=
  [⟨[[6, 6], [7, 7]], [0, 0], [1]⟩, ⟨[[5]], [0, 1], [2]⟩, ⟨[[5]], [1, 1], [3]⟩]

example : (loopBlock finOps true [1, 0, 1] crossing).map SItem.stmts = [[1], [2, 3]] := by decide

theorem groups_unique {groups : List (List (SItem (List Pt)))} {out : List (SItem (List Pt))}
    {ls : List (SItem (List Pt))} (h : Distributes (fun d x => x ∈ d) ls groups out)
    (lens : List Nat) (hl : out.map (fun A => A.stmts.length) = lens)
    (h1 : ∀ a ∈ ls, a.stmts.length = 1) : groups.map List.length = lens := by
  rw [← hl]
  have : out.map (fun A => A.stmts.length) = (out.map SItem.stmts).map List.length := by simp
  rw [this, h.stmts, List.map_map]
  apply List.map_congr_left
  intro G hG
  simp only [Function.comp_apply, List.length_flatMap]
  have : ∀ a ∈ G, a.stmts.length = 1 := by
    intro a ha
    apply h1
    rw [← h.flatten]
    exact List.mem_flatten.2 ⟨G, hG, ha⟩
  rw [List.map_congr_left (g := fun _ => 1) this]
  simp

/-- **C50 is false.**  `cloog_loop_block` can break the order given by the scattering: in `twoPhases` the
    two statements are put into one loop body, so that the second statement at `i = 0` runs before the
    first statement at `i = 1`. -/
theorem C50_two_phases : ¬ ∀ (sd : List Nat) (ls : List (SItem (List Pt))) (groups),
    Distributes (fun d x => x ∈ d) ls groups (loopBlock finOps true sd ls) →
    KeepsOrder (fun d x => x ∈ d) sd groups (loopBlock finOps true sd ls) := by
  intro h
  obtain ⟨groups, hd⟩ := C38_loop_block finLaws true [1] twoPhases
  have hk := h [1] twoPhases groups hd
  have hl := groups_unique hd [2] (by decide) (by decide)
  have hg : groups = [twoPhases] := by
    match groups, hl, hd.flatten with
    | [G], _, hf => simpa using hf
    | [], hl, _ => simp at hl
    | _ :: _ :: _, hl, _ => simp at hl
  subst hg
  have := hk 0 0 0 1 twoPhases twoPhases _ _ ⟨[[0], [1]], [0], [1]⟩ ⟨[[0], [1]], [1], [2]⟩ [1] [0]
    rfl rfl (by rfl) (by rfl) rfl rfl (by decide) (by decide) (by left; decide)
  rcases this with h0 | ⟨_, h0, _⟩
  · exact before_irrefl _ h0
  · exact absurd h0 (by decide)

/-- **C50 is false** even when no two instances share a date: in `crossing`, statement 3 is moved into the
    block of statement 2, at date `(0, 5, 1)`, before the instances of statement 1 at `(0, 6, 0)`. -/
theorem C50_crossing : ¬ ∀ (sd : List Nat) (ls : List (SItem (List Pt))) (groups),
    (∀ a ∈ ls, ∀ b ∈ ls, ∀ x ∈ a.dom, ∀ y ∈ b.dom, sdate sd a x = sdate sd b y → a.stmts = b.stmts ∧ x = y) →
    Distributes (fun d x => x ∈ d) ls groups (loopBlock finOps true sd ls) →
    KeepsOrder (fun d x => x ∈ d) sd groups (loopBlock finOps true sd ls) := by
  intro h
  obtain ⟨groups, hd⟩ := C38_loop_block finLaws true [1, 0, 1] crossing
  have hk := h [1, 0, 1] crossing groups (by decide) hd
  have hl := groups_unique hd [1, 2] (by decide) (by decide)
  have hg : groups = [[⟨[[6, 6], [7, 7]], [0, 0], [1]⟩], [⟨[[5]], [0, 1], [2]⟩, ⟨[[5]], [1, 1], [3]⟩]] := by
    match groups, hl, hd.flatten with
    | [[a], [b, c]], _, hf => simpa [crossing] using hf
    | [], hl, _ => simp at hl
    | [_], hl, _ => simp at hl
    | _ :: _ :: _ :: _, hl, _ => simp at hl
    | [] :: _, hl, _ => simp at hl
    | (_ :: _ :: _) :: _, hl, _ => simp at hl
    | [_, []], hl, _ => simp at hl
    | [_, [_]], hl, _ => simp at hl
    | [_, _ :: _ :: _ :: _], hl, _ => simp at hl
  subst hg
  have := hk 0 1 0 1 _ _ _ _ ⟨[[6, 6], [7, 7]], [0, 0], [1]⟩ ⟨[[5]], [1, 1], [3]⟩ [6, 6] [5]
    rfl rfl (by rfl) (by rfl) rfl rfl (by decide) (by decide) (by left; decide)
  rcases this with h0 | ⟨h0, _⟩
  · rcases h0 with h0 | ⟨_, h0 | ⟨h0, _⟩⟩
    · revert h0; decide
    · revert h0; decide
    · revert h0; decide
  · exact absurd h0 (by decide)

/-! ## A condition under which the order is kept -/

theorem interleave_falses : ∀ (p : Nat) (f : List Bool) (vs t : List Int),
    interleave (List.replicate p false ++ f) vs t = t.take p ++ interleave f vs (t.drop p)
  | 0, f, vs, t => by simp
  | p + 1, f, vs, t => by
    rw [List.replicate_succ, List.cons_append, interleave, interleave_falses p]
    cases t <;> simp

theorem interleave_trues : ∀ (m : Nat) (f : List Bool) (vs t : List Int), vs.length = m →
    interleave (List.replicate m true ++ f) vs t = vs ++ interleave f [] t
  | 0, f, vs, t, h => by simp only [List.length_eq_zero_iff] at h; simp [h]
  | m + 1, f, [], t, h => by simp at h
  | m + 1, f, v :: vs, t, h => by
    rw [List.replicate_succ, List.cons_append, interleave]
    simp only [List.tail_cons]
    rw [interleave_trues m f vs t (by simpa using h)]
    simp

/-- Scalar dimensions in one run: `p` other dimensions before it and `q` after it. -/
structure OneRun (sd : List Nat) (p m q : Nat) : Prop where
  shape : ∃ ts, sd = List.replicate p 0 ++ ts ++ List.replicate q 0 ∧ ts.length = m ∧ ∀ t ∈ ts, t ≠ 0

theorem sdate_oneRun {sd : List Nat} {p m q : Nat} (h : OneRun sd p m q) (a : SItem D) (x : Pt)
    (ha : a.scal.length = m) : sdate sd a x = x.take p ++ (a.scal ++ (x.drop p).take q) := by
  obtain ⟨ts, rfl, hm, ht⟩ := h.shape
  have hts : ts.map (fun n => decide (n ≠ 0)) = List.replicate m true := by
    rw [List.eq_replicate_iff]
    refine ⟨by simp [hm], ?_⟩
    intro b hb
    obtain ⟨t, h1, rfl⟩ := List.mem_map.1 hb
    simpa using ht t h1
  unfold sdate
  rw [List.map_append, List.map_append, hts, List.map_replicate, List.map_replicate]
  simp only [ne_eq, not_true_eq_false, decide_false]
  rw [List.append_assoc, interleave_falses, interleave_trues _ _ _ _ ha]
  have := interleave_falses q [] [] (x.drop p)
  simp only [List.append_nil, interleave] at this
  rw [this]

theorem before_append : ∀ (s t u v : List Int), s.length = t.length →
    (before (s ++ u) (t ++ v) ↔ before s t ∨ (s = t ∧ before u v))
  | [], [], u, v, _ => by simp [before]
  | [], _ :: _, _, _, h => by simp at h
  | _ :: _, [], _, _, h => by simp at h
  | a :: s, b :: t, u, v, h => by
    have := before_append s t u v (by simpa using h)
    simp only [List.cons_append, before, this, List.cons.injEq]
    constructor
    · rintro (h | ⟨h1, h2 | ⟨h2, h3⟩⟩)
      · exact .inl (.inl h)
      · exact .inl (.inr ⟨h1, h2⟩)
      · exact .inr ⟨⟨h1, h2⟩, h3⟩
    · rintro ((h | ⟨h1, h2⟩) | ⟨⟨h1, h2⟩, h3⟩)
      · exact .inl h
      · exact .inr ⟨h1, .inl h2⟩
      · exact .inr ⟨h1, .inr ⟨h2, h3⟩⟩

theorem equalPrefixGo_after (dom : D) : ∀ (ts : List Nat) (q d : Nat) (as bs : List Int),
    (∀ t ∈ ts, t ≠ 0) → equalPrefixGo o dom (ts ++ List.replicate q 0) as bs d true = true →
    ∀ k, d ≤ k → k < d + q → o.isConst dom k = true
  | [], 0, d, as, bs, _, _ => by intro k h1 h2; omega
  | [], q + 1, d, as, bs, _, h => by
    rw [List.replicate_succ, List.nil_append] at h
    unfold equalPrefixGo at h
    simp only [ne_eq, not_true_eq_false, if_false] at h
    cases hc : o.isConst dom d with
    | false => rw [hc] at h; simp at h
    | true =>
      rw [hc] at h
      simp only [Bool.not_true, Bool.false_eq_true, if_false] at h
      intro k h1 h2
      by_cases e : k = d
      · rw [e]; exact hc
      · exact equalPrefixGo_after dom [] q (d + 1) as bs (by simp) (by simpa using h) k (by omega) (by omega)
  | t :: ts, q, d, as, bs, ht, h => by
    rw [List.cons_append] at h
    unfold equalPrefixGo at h
    rw [if_pos (ht t List.mem_cons_self)] at h
    exact equalPrefixGo_after dom ts q d as bs (fun u hu => ht u (List.mem_cons_of_mem _ hu)) h

theorem equalPrefixGo_run (dom : D) : ∀ (ts : List Nat) (q d : Nat) (as bs : List Int),
    (∀ t ∈ ts, t ≠ 0) → as.length = ts.length → bs.length = ts.length →
    equalPrefixGo o dom (ts ++ List.replicate q 0) as bs d false = true →
    as = bs ∨ ∀ k, d ≤ k → k < d + q → o.isConst dom k = true
  | [], q, d, as, bs, _, ha, hb, _ => by
    simp only [List.length_nil, List.length_eq_zero_iff] at ha hb
    exact .inl (by rw [ha, hb])
  | t :: ts, q, d, [], bs, _, ha, _, _ => by simp at ha
  | t :: ts, q, d, a :: as, [], _, _, hb, _ => by simp at hb
  | t :: ts, q, d, a :: as, b :: bs, ht, ha, hb, h => by
    rw [List.cons_append] at h
    unfold equalPrefixGo at h
    rw [if_neg (ht t List.mem_cons_self)] at h
    have ht' : ∀ u ∈ ts, u ≠ 0 := fun u hu => ht u (List.mem_cons_of_mem _ hu)
    by_cases e : a = b
    · subst e
      simp only [List.head?_cons, List.tail_cons, if_true] at h
      rcases equalPrefixGo_run dom ts q d as bs ht' (by simpa using ha) (by simpa using hb) h with h | h
      · exact .inl (by rw [h])
      · exact .inr h
    · simp only [List.head?_cons, Option.some.injEq, e, if_false] at h
      exact .inr (equalPrefixGo_after dom ts q d _ _ ht' h)

theorem equalPrefix_oneRun {sd : List Nat} {p m q : Nat} (h : OneRun sd p m q) (a b : SItem D)
    (ha : a.scal.length = m) (hb : b.scal.length = m) (he : equalPrefix o sd a b = true) :
    a.scal = b.scal ∨ ∀ k, p ≤ k → k < p + q → o.isConst a.dom k = true := by
  obtain ⟨ts, rfl, hm, ht⟩ := h.shape
  unfold equalPrefix at he
  have skip : ∀ (n d : Nat), equalPrefixGo o a.dom (List.replicate n 0 ++ ts ++ List.replicate q 0)
      a.scal b.scal d false = equalPrefixGo o a.dom (ts ++ List.replicate q 0) a.scal b.scal (d + n) false := by
    intro n
    induction n with
    | zero => intro d; simp
    | succ n ih =>
      intro d
      rw [List.replicate_succ, List.cons_append, List.cons_append]
      conv_lhs => unfold equalPrefixGo
      rw [if_pos rfl, ih]
      congr 1; omega
  rw [skip] at he
  rw [Nat.zero_add] at he
  exact equalPrefixGo_run a.dom ts q p a.scal b.scal ht (by omega) (by omega) he

/-- **C50, partial.**  The order of the dates is kept when the scalar dimensions form one run and no two
    instances of one statement share a date.  (Missing: every other case; it is false there, see
    `C50_two_phases` and `C50_crossing`.) -/
theorem C50_loop_block_partial (W : SLaws o mem) (hasScal : Bool) {sd : List Nat} {p m q : Nat}
    (hrun : OneRun sd p m q) (ls : List (SItem D)) (hm : ∀ a ∈ ls, a.scal.length = m)
    (hdim : ∀ a ∈ ls, ∀ x, mem a.dom x → p + q ≤ x.length)
    (hinj : ∀ a ∈ ls, ∀ x y, mem a.dom x → mem a.dom y → sdate sd a x = sdate sd a y → x = y) :
    ∃ groups, Distributes mem ls groups (loopBlock o hasScal sd ls) ∧
      KeepsOrder mem sd groups (loopBlock o hasScal sd ls) := by
  obtain ⟨gs, e1, e2, e3, e4⟩ := loopBlock_groups (o := o) hasScal sd ls
  have hin : ∀ p ∈ gs, ∀ a ∈ p.1 :: p.2, a ∈ ls := by
    intro p hp a ha
    rw [← e2]; exact List.mem_flatMap.2 ⟨p, hp, ha⟩
  have hdom : ∀ p ∈ gs, ∀ a ∈ p.1 :: p.2, ∀ x, mem p.1.dom x ↔ mem a.dom x := by
    intro p hp a ha x
    rcases List.mem_cons.1 ha with rfl | ha
    · exact Iff.rfl
    · exact W.lazyEqual _ _ (e3 p hp a ha).2 x
  refine ⟨gs.map (fun p => p.1 :: p.2), ⟨?_, ?_, ?_, ?_⟩, ?_⟩
  · rw [← List.flatMap_def, e2]
  · intro G hG
    obtain ⟨p, _, rfl⟩ := List.mem_map.1 hG
    simp
  · rw [e1]; simp [blockOf, Function.comp_def]
  · intro g G A h1 h2 a ha x
    rw [e1] at h2
    rw [List.getElem?_map, Option.map_eq_some_iff] at h1 h2
    obtain ⟨p, hp, rfl⟩ := h1
    obtain ⟨p', hp', rfl⟩ := h2
    rw [hp] at hp'
    simp only [Option.some.injEq] at hp'
    subst hp'
    exact hdom p (List.mem_of_getElem? hp) a ha x
  · intro g h k l G H A B a b x y h1 h2 h3 h4 h5 h6 hx hy hb
    rw [e1] at h3 h4
    rw [List.getElem?_map, Option.map_eq_some_iff] at h1 h2 h3 h4
    obtain ⟨u, hu, rfl⟩ := h1
    obtain ⟨v, hv, rfl⟩ := h2
    obtain ⟨u', hu', rfl⟩ := h3
    obtain ⟨v', hv', rfl⟩ := h4
    rw [hu] at hu'
    rw [hv] at hv'
    simp only [Option.some.injEq] at hu' hv'
    subst hu'; subst hv'
    have mu := List.mem_of_getElem? hu
    have mv := List.mem_of_getElem? hv
    have ma := List.mem_of_getElem? h5
    have mb := List.mem_of_getElem? h6
    have la := hm a (hin u mu a ma)
    have lb := hm b (hin v mv b mb)
    have lu := hm u.1 (hin u mu u.1 List.mem_cons_self)
    have lv := hm v.1 (hin v mv v.1 List.mem_cons_self)
    have dx := hdim a (hin u mu a ma) x hx
    have dy := hdim b (hin v mv b mb) y hy
    have hA : sdate sd (blockOf u) x = x.take p ++ (u.1.scal ++ (x.drop p).take q) :=
      sdate_oneRun hrun (blockOf u) x lu
    have hB : sdate sd (blockOf v) y = y.take p ++ (v.1.scal ++ (y.drop p).take q) :=
      sdate_oneRun hrun (blockOf v) y lv
    have hpl : (x.take p).length = (y.take p).length := by simp; omega
    rw [hA, hB, before_append _ _ _ _ hpl, before_append _ _ _ _ (by omega)]
    rw [sdate_oneRun hrun a x la, sdate_oneRun hrun b y lb, before_append _ _ _ _ hpl,
      before_append _ _ _ _ (by omega)] at hb
    rcases hb with hb | ⟨hpe, hb⟩
    · exact .inl (.inl hb)
    by_cases hsing : u.2 = [] ∧ v.2 = []
    · have ea : a = u.1 := by rw [hsing.1] at ma; simpa using ma
      have eb : b = v.1 := by rw [hsing.2] at mb; simpa using mb
      rw [ea, eb] at hb
      exact .inl (.inr ⟨hpe, hb⟩)
    have hns : u.2 ≠ [] ∨ v.2 ≠ [] := by
      by_cases h' : u.2 = []
      · exact .inr (fun h'' => hsing ⟨h', h''⟩)
      · exact .inl h'
    rcases e4 with e4 | ⟨hsort, e4⟩
    · exact absurd ⟨e4 u mu, e4 v mv⟩ hsing
    have hgl := (List.getElem?_eq_some_iff.1 hu).1
    have hhl := (List.getElem?_eq_some_iff.1 hv).1
    have hge := (List.getElem?_eq_some_iff.1 hu).2
    have hhe := (List.getElem?_eq_some_iff.1 hv).2
    have pw := List.pairwise_iff_getElem.1 e4
    rcases Nat.lt_trichotomy g h with hlt | heq | hgt
    · have := pw g h hgl hhl hlt
      rw [hge, hhe] at this
      exact .inl (.inr ⟨hpe, .inl (this hns u.1 List.mem_cons_self v.1 List.mem_cons_self)⟩)
    · subst heq
      rw [hu] at hv
      simp only [Option.some.injEq] at hv
      subst hv
      -- all the scalar values of the group are equal, or the later dimensions are constant
      have hgrp : (∀ c ∈ u.1 :: u.2, c.scal = u.1.scal) ∨
          ∀ k, p ≤ k → k < p + q → o.isConst u.1.dom k = true := by
        by_contra hcon
        push Not at hcon
        obtain ⟨⟨c, hc, hne⟩, k, k1, k2, k3⟩ := hcon
        rcases List.mem_cons.1 hc with rfl | hc
        · exact hne rfl
        · rcases equalPrefix_oneRun hrun u.1 c lu (hm c (hin u mu c (List.mem_cons_of_mem _ hc)))
            (e3 u mu c hc).1 with h' | h'
          · exact hne h'.symm
          · exact k3 (h' k k1 k2)
      rcases hgrp with hall | hconst
      · rw [hall a ma, hall b mb] at hb
        exact .inl (.inr ⟨hpe, hb⟩)
      · have hux : mem u.1.dom x := (hdom u mu a ma x).2 hx
        have huy : mem u.1.dom y := (hdom u mu b mb y).2 hy
        have hqe : (x.drop p).take q = (y.drop p).take q := by
          apply List.ext_getElem?
          intro i
          rw [List.getElem?_take, List.getElem?_take]
          split_ifs with hi
          · rw [List.getElem?_drop, List.getElem?_drop]
            exact W.isConst _ _ (hconst (p + i) (by omega) (by omega)) x y hux huy
          · rfl
        have hxy : x = y := by
          apply hinj u.1 (hin u mu u.1 List.mem_cons_self) x y hux huy
          rw [sdate_oneRun hrun u.1 x lu, sdate_oneRun hrun u.1 y lu, hpe, hqe]
        refine .inr ⟨rfl, hxy, ?_⟩
        have hsc : before a.scal b.scal := by
          rcases hb with hb | ⟨_, hb⟩
          · exact hb
          · rw [hqe] at hb; exact absurd hb (before_irrefl _)
        by_contra hkl
        have hgs : (u.1 :: u.2).Pairwise (fun a b => le a.scal b.scal) := by
          have : (u.1 :: u.2).Sublist ls := by
            rw [← e2]
            have := List.sublist_flatten_of_mem (List.mem_map.2 ⟨u, mu, rfl⟩ :
              (fun p : SItem D × List (SItem D) => p.1 :: p.2) u ∈ gs.map (fun p => p.1 :: p.2))
            rw [← List.flatMap_def] at this
            exact this
          exact hsort.sublist this
        have hkl' := (List.getElem?_eq_some_iff.1 h5).1
        have hll' := (List.getElem?_eq_some_iff.1 h6).1
        have hke := (List.getElem?_eq_some_iff.1 h5).2
        have hle := (List.getElem?_eq_some_iff.1 h6).2
        by_cases hkk : l = k
        · subst hkk
          rw [h5] at h6
          simp only [Option.some.injEq] at h6
          subst h6
          exact before_irrefl _ hsc
        · have := List.pairwise_iff_getElem.1 hgs l k hll' hkl' (by omega)
          rw [hke, hle] at this
          exact before_irrefl _ (before_le hsc this)
    · have := pw h g hhl hgl hgt
      rw [hge, hhe] at this
      have hba := this hns.symm b mb a ma
      rcases hb with hb | ⟨hb, _⟩
      · exact absurd (before_trans hb hba) (before_irrefl _)
      · rw [hb] at hba; exact absurd hba (before_irrefl _)

/-- Three statements with dates `(i, 0)`, `(i, 1)` and `(i, 2)`, the last on another domain: the first two
    become one block. -/
def exItems : List (SItem (List Pt)) :=
  [⟨[[0, 0], [1, 1]], [0], [1]⟩, ⟨[[0, 0], [1, 1]], [1], [2]⟩, ⟨[[0, 0]], [2], [3]⟩]

example : OneRun [0, 1] 1 1 0 := ⟨[1], rfl, rfl, by decide⟩
example : ∀ a ∈ exItems, ∀ x ∈ a.dom, ∀ y ∈ a.dom, sdate [0, 1] a x = sdate [0, 1] a y → x = y := by decide
example : ∀ a ∈ exItems, a.scal.length = 1 ∧ ∀ x ∈ a.dom, 1 + 0 ≤ x.length := by decide
example : (loopBlock finOps true [0, 1] exItems).map SItem.stmts = [[1, 2], [3]] := by decide

end Verif.Props.LoopBlock
