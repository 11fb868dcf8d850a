import Verif.Model.Tarjan
import Mathlib.Logic.Relation
import Mathlib.Data.List.Nodup
import Mathlib.Data.List.Perm.Subperm
import Mathlib.Data.List.Range
import Mathlib.Data.List.Flatten
import Mathlib.Tactic.Linarith

/-!
# C21: the components of a list of loops

`C21_components`: for every number of loops and every `follows` relation, the traversal terminates
without leaving its buffers, and yields the strongly connected components of the relation, each
loop once, in an order in which no component follows a later one.
-/

namespace Verif.Props.Tarjan

open Verif.Tarjan Relation

/-- Specification: `x` follows `y`, for two different loops among `n`. -/
def Follows (f : Nat → Nat → Bool) (n : Nat) (x y : Nat) : Prop :=
  x < n ∧ y < n ∧ x ≠ y ∧ f x y = true

/-- Specification: `x` follows `y` directly or indirectly (or `x = y`). -/
abbrev Reach (f : Nat → Nat → Bool) (n : Nat) : Nat → Nat → Prop :=
  ReflTransGen (Follows f n)

/-- the position `x` has been visited. -/
def Vis (s : St) (x : Nat) : Prop := 0 ≤ (s.node x).index

/-- the content of `order` for the components `cs`. -/
def flat (cs : List (List Nat)) : List Int := cs.flatMap (fun c => c.map (fun x : Nat => (x : Int)) ++ [-1])

/-- The invariant of the traversal, with the nodes `g` of the pending calls and the components `cs`
found so far. -/
structure Inv (f : Nat → Nat → Bool) (n : Nat) (s : St) (g : List Nat) (cs : List (List Nat)) :
    Prop where
  len : s.len = n
  order : s.order = flat cs
  vis : ∀ x, Vis s x ↔ x ∈ s.stack ++ cs.flatten
  lt : ∀ x ∈ s.stack ++ cs.flatten, x < n
  nodup : (s.stack ++ cs.flatten).Nodup
  onS : ∀ x, Vis s x → ((s.node x).onStack = true ↔ x ∈ s.stack)
  below : ∀ x, Vis s x → (s.node x).index < s.index
  dec : s.stack.Pairwise (fun a b => (s.node b).index < (s.node a).index)
  gst : ∀ x ∈ g, x ∈ s.stack
  black : ∀ x y, Vis s x → x ∉ g → Follows f n x y → Vis s y
  up : ∀ x ∈ s.stack, ∀ y ∈ s.stack, (s.node x).index ≤ (s.node y).index → Reach f n x y
  down : ∀ y ∈ s.stack, ∃ x ∈ g, (s.node x).index ≤ (s.node y).index ∧ Reach f n y x
  ne : ∀ c ∈ cs, c ≠ []
  scc : ∀ c ∈ cs, ∀ x ∈ c, ∀ y, y ∈ c ↔ Reach f n x y ∧ Reach f n y x
  closed : ∀ k, ∀ x ∈ (cs.take k).flatten, ∀ y, Follows f n x y → y ∈ (cs.take k).flatten

variable {f : Nat → Nat → Bool} {n : Nat}

theorem length_le_of_nodup {l : List Nat} (h : l.Nodup) (hl : ∀ x ∈ l, x < n) : l.length ≤ n := by
  have : l ⊆ List.range n := fun x hx => by simpa using hl x hx
  simpa using (List.subperm_of_subset h this).length_le

theorem length_lt_of_nodup {l : List Nat} {i : Nat} (h : l.Nodup) (hl : ∀ x ∈ l, x < n)
    (hi : i < n) (hil : i ∉ l) : l.length < n := by
  have := length_le_of_nodup (n := n) (l := i :: l) (by simp [h, hil]) (by simpa using ⟨hi, hl⟩)
  simp only [List.length_cons] at this
  omega

theorem flat_length (cs : List (List Nat)) :
    (flat cs).length = cs.flatten.length + cs.length := by
  induction cs with
  | nil => simp [flat]
  | cons c cs ih => simp only [flat, List.flatMap_cons, List.length_append] at ih ⊢
                    simp only [ih]; simp; omega

theorem length_le_flatten (cs : List (List Nat)) (h : ∀ c ∈ cs, c ≠ []) :
    cs.length ≤ cs.flatten.length := by
  induction cs with
  | nil => simp
  | cons c cs ih =>
    have h1 := ih (fun c hc => h c (by simp [hc]))
    have h2 : 0 < c.length := List.length_pos_of_ne_nil (h c (by simp))
    simp only [List.length_cons, List.flatten_cons, List.length_append]; omega

theorem closed_reach {f : Nat → Nat → Bool} {P : Nat → Prop}
    (h : ∀ x, P x → ∀ y, Follows f n x y → P y) {x y : Nat} (hr : Reach f n x y) (hx : P x) :
    P y := by
  induction hr with
  | refl => exact hx
  | tail _ e ih => exact h _ ih _ e

/-- What a call of the traversal on `i` guarantees. -/
structure Post (f : Nat → Nat → Bool) (n : Nat) (s : St) (g : List Nat) (cs : List (List Nat))
    (i : Nat) (s' : St) (new : List Nat) (cs' : List (List Nat)) : Prop where
  inv : Inv f n s' g cs'
  visI : Vis s' i
  keep : ∀ x, Vis s x → s'.node x = s.node x
  st : s'.stack = new ++ s.stack
  mle : (s'.node i).minIndex ≤ (s'.node i).index
  wit : new = [] ∨ ∃ y ∈ s.stack, (s.node y).index = (s'.node i).minIndex ∧ Reach f n i y
  popped : new = [] → (s'.node i).minIndex = (s'.node i).index
  newer : (s.index : Int) ≤ (s'.node i).index
  edge : ∀ x ∈ new, ∀ y ∈ s.stack, Follows f n x y → (s'.node i).minIndex ≤ (s.node y).index
  more : s.stack.length + cs.flatten.length < s'.stack.length + cs'.flatten.length

/-- What a traversal function `r` with enough fuel does. -/
def Works (f : Nat → Nat → Bool) (n fuel : Nat) (r : Nat → St → Option St) : Prop :=
  ∀ i s g cs, Inv f n s g cs → i < n → ¬ Vis s i → (∀ x ∈ g, Reach f n x i) →
    n ≤ fuel + (s.stack.length + cs.flatten.length) →
    ∃ s' new cs', r i s = some s' ∧ Post f n s g cs i s' new cs'

/-- The invariant of the `for` loop in the call on `i` that was entered in the state `s0`, when the
positions from `k` on have been dealt with. -/
structure SInv (f : Nat → Nat → Bool) (n : Nat) (s0 : St) (g : List Nat) (cs0 : List (List Nat))
    (i k : Nat) (s : St) (new : List Nat) (cs : List (List Nat)) : Prop where
  inv : Inv f n s (i :: g) cs
  visI : Vis s i
  keep : ∀ x, Vis s0 x → s.node x = s0.node x
  st : s.stack = new ++ i :: s0.stack
  idx : (s.node i).index = s0.index
  mle : (s.node i).minIndex ≤ (s.node i).index
  wit : ∃ y ∈ i :: s0.stack, (s.node y).index = (s.node i).minIndex ∧ Reach f n i y
  edge : ∀ x ∈ new, ∀ y ∈ s0.stack, Follows f n x y → (s.node i).minIndex ≤ (s.node y).index
  done : ∀ j, k ≤ j → Follows f n i j →
    Vis s j ∧ (j ∈ s0.stack → (s.node i).minIndex ≤ (s.node j).index)
  more : s0.stack.length + cs0.flatten.length < s.stack.length + cs.flatten.length

/-- Changing the `min_index` of a node does not disturb the invariant. -/
theorem Inv.setMin {s : St} {g : List Nat} {cs : List (List Nat)} (h : Inv f n s g cs) (i : Nat)
    (m : Int) : Inv f n (setMin s i m) g cs := by
  have hi : ∀ x, ((Verif.Tarjan.setMin s i m).node x).index = (s.node x).index := by
    intro x; unfold Verif.Tarjan.setMin
    by_cases hx : x = i
    · subst hx; simp
    · simp [hx]
  have ho : ∀ x, ((Verif.Tarjan.setMin s i m).node x).onStack = (s.node x).onStack := by
    intro x; unfold Verif.Tarjan.setMin
    by_cases hx : x = i
    · subst hx; simp
    · simp [hx]
  have hv : ∀ x, Vis (Verif.Tarjan.setMin s i m) x ↔ Vis s x := by intro x; simp [Vis, hi]
  exact
  { len := h.len
    order := h.order
    vis := by intro x; rw [hv]; exact h.vis x
    lt := h.lt
    nodup := h.nodup
    onS := by intro x hx; rw [ho]; exact h.onS x ((hv x).1 hx)
    below := by intro x hx; rw [hi]; exact h.below x ((hv x).1 hx)
    dec := by simp only [hi]; exact h.dec
    gst := h.gst
    black := by intro x y hx hg e; exact (hv y).2 (h.black x y ((hv x).1 hx) hg e)
    up := by simp only [hi]; exact h.up
    down := by simp only [hi]; exact h.down
    ne := h.ne
    scc := h.scc
    closed := h.closed }

theorem scanStep_spec {fuel : Nat} {r : Nat → St → Option St} (hr : Works f n fuel r)
    {s0 s : St} {g : List Nat} {cs0 cs : List (List Nat)} {i j : Nat} {new : List Nat}
    (hin : i < n) (hjn : j < n) (hg : ∀ x ∈ g, Reach f n x i)
    (h0 : Inv f n s0 g cs0) (h0i : ¬ Vis s0 i)
    (hfuel : n ≤ fuel + (s.stack.length + cs.flatten.length))
    (h : SInv f n s0 g cs0 i (j + 1) s new cs) :
    ∃ s' new' cs', scanStep f r i j s = some s' ∧ SInv f n s0 g cs0 i j s' new' cs' ∧
      s.stack.length + cs.flatten.length ≤ s'.stack.length + cs'.flatten.length := by
  -- extending `done` by `j`
  have ext : ∀ (hj : Follows f n i j →
      Vis s j ∧ (j ∈ s0.stack → (s.node i).minIndex ≤ (s.node j).index)),
      SInv f n s0 g cs0 i j s new cs := by
    intro hj
    refine { h with done := ?_ }
    intro j' hj' e
    rcases Nat.eq_or_lt_of_le hj' with heq | hlt
    · subst heq; exact hj e
    · exact h.done j' hlt e
  unfold scanStep
  by_cases hji : j = i
  · rw [if_pos hji]
    exact ⟨s, new, cs, rfl, ext (fun e => absurd hji.symm e.2.2.1), le_refl _⟩
  rw [if_neg hji]
  split
  · rename_i hc
    refine ⟨s, new, cs, rfl, ext (fun _ => ⟨hc.1, fun hjs => ?_⟩), le_refl _⟩
    rcases hc.2 with hc2 | hc2
    · have hst : j ∈ s.stack := by rw [h.st]; simp [hjs]
      rw [(h.inv.onS j hc.1).2 hst] at hc2; simp at hc2
    · exact le_of_lt hc2
  rename_i hc
  split
  · rename_i hf
    exact ⟨s, new, cs, rfl, ext (fun e => by rw [e.2.2.2] at hf; simp at hf), le_refl _⟩
  rename_i hf
  have hE : Follows f n i j := ⟨hin, hjn, fun e => hji e.symm, by simpa using hf⟩
  split
  · rename_i hneg
    have hnv : ¬ Vis s j := by unfold Vis; omega
    obtain ⟨s', nw, cs', hrun, hp⟩ := hr j s (i :: g) cs h.inv hjn hnv (by
      intro x hx
      rcases List.mem_cons.1 hx with rfl | hx
      · exact ReflTransGen.single hE
      · exact (hg x hx).tail hE) hfuel
    rw [hrun]
    have hsi : s'.node i = s.node i := hp.keep i h.visI
    have hv0s : ∀ x, Vis s0 x → Vis s x := by
      intro x hx; unfold Vis; rw [h.keep x hx]; exact hx
    have hs0 : ∀ y ∈ s0.stack, Vis s0 y := fun y hy => (h0.vis y).2 (by simp [hy])
    have hsx : ∀ y ∈ s0.stack, s'.node y = s.node y := fun y hy => hp.keep y (hv0s y (hs0 y hy))
    have hkeep : ∀ x, Vis s0 x → s'.node x = s0.node x := by
      intro x hx; rw [hp.keep x (hv0s x hx), h.keep x hx]
    have hvmono : ∀ x, Vis s x → Vis s' x := by
      intro x hx; unfold Vis; rw [hp.keep x hx]; exact hx
    have hst' : s'.stack = (nw ++ new) ++ i :: s0.stack := by
      rw [hp.st, h.st]; simp
    have hmidx : (s.node i).index = s0.index := h.idx
    have hsI : s0.index ≤ s.index := by
      have := h.inv.below i h.visI; omega
    have hle := hp.more
    dsimp only
    by_cases hm : (s'.node j).minIndex < (s'.node i).minIndex
    · rw [if_pos hm]
      have hi' : ∀ x, ((Verif.Tarjan.setMin s' i (s'.node j).minIndex).node x).index
          = (s'.node x).index := by
        intro x; unfold Verif.Tarjan.setMin
        by_cases hx : x = i
        · subst hx; simp
        · simp [hx]
      have hmi : ((Verif.Tarjan.setMin s' i (s'.node j).minIndex).node i).minIndex
          = (s'.node j).minIndex := by
        simp [Verif.Tarjan.setMin]
      refine ⟨_, nw ++ new, cs', rfl, ?_, by simpa [Verif.Tarjan.setMin] using le_of_lt hle⟩
      refine
      { inv := hp.inv.setMin i _
        visI := ?_, keep := ?_, st := by simpa [Verif.Tarjan.setMin] using hst'
        idx := ?_, mle := ?_, wit := ?_, edge := ?_, done := ?_, more := ?_ }
      · unfold Vis; rw [hi', hsi]; exact h.visI
      · intro x hx
        have hxi : x ≠ i := by rintro rfl; exact h0i hx
        simp only [Verif.Tarjan.setMin, ne_eq, hxi, not_false_eq_true, Function.update_of_ne]
        exact hkeep x hx
      · rw [hi', hsi]; exact h.idx
      · rw [hmi, hi', hsi]; rw [hsi] at hm; have := h.mle; omega
      · rcases hp.wit with hw | ⟨y, hy, hyi, hry⟩
        · exfalso
          have hpop := hp.popped hw
          have := hp.newer
          rw [hsi] at hm
          have := h.mle
          have := h.inv.below i h.visI
          omega
        · have hys : Vis s y := (h.inv.vis y).2 (by simp [hy])
          rw [hmi]
          have hyin : y ∈ i :: s0.stack := by
            by_contra hny
            have hyn : y ∈ new := by
              rw [h.st] at hy
              rcases List.mem_append.1 hy with hy | hy
              · exact hy
              · exact absurd hy hny
            have hd := h.inv.dec
            rw [h.st, List.pairwise_append] at hd
            have := hd.2.2 y hyn i (by simp)
            rw [hsi] at hm; have := h.mle; omega
          exact ⟨y, hyin, by rw [hi', hp.keep y hys, hyi], ReflTransGen.head hE hry⟩
      · intro x hx y hy e
        rw [hmi, hi', hsx y hy]
        rcases List.mem_append.1 hx with hx | hx
        · exact hp.edge x hx y (by rw [h.st]; simp [hy]) e
        · have := h.edge x hx y hy e; rw [hsi] at hm; omega
      · intro j' hj' e
        rw [hmi]
        rcases Nat.eq_or_lt_of_le hj' with heq | hlt
        · subst heq
          refine ⟨by unfold Vis; rw [hi']; exact hp.visI, fun hjs => ?_⟩
          exact absurd (hv0s j (hs0 j hjs)) hnv
        · have hd := h.done j' hlt e
          refine ⟨by unfold Vis; rw [hi']; exact hvmono _ hd.1, fun hjs => ?_⟩
          have := hd.2 hjs
          rw [hi', hsx j' hjs]; rw [hsi] at hm; omega
      · have := h.more; simp only [Verif.Tarjan.setMin]; omega
    · rw [if_neg hm]
      refine ⟨s', nw ++ new, cs', rfl, ?_, le_of_lt hle⟩
      refine
      { inv := hp.inv
        visI := ?_, keep := hkeep, st := hst'
        idx := ?_, mle := ?_, wit := ?_, edge := ?_, done := ?_, more := ?_ }
      · unfold Vis; rw [hsi]; exact h.visI
      · rw [hsi]; exact h.idx
      · rw [hsi]; exact h.mle
      · obtain ⟨y, hy, hyi, hry⟩ := h.wit
        refine ⟨y, hy, ?_, hry⟩
        rw [hsi]
        rcases List.mem_cons.1 hy with rfl | hy'
        · rw [hsi]; exact hyi
        · rw [hsx y hy']; exact hyi
      · intro x hx y hy e
        rw [hsx y hy, hsi]
        rcases List.mem_append.1 hx with hx | hx
        · have := hp.edge x hx y (by rw [h.st]; simp [hy]) e
          rw [hsi] at hm; omega
        · exact h.edge x hx y hy e
      · intro j' hj' e
        rw [hsi]
        rcases Nat.eq_or_lt_of_le hj' with heq | hlt
        · subst heq
          refine ⟨hp.visI, fun hjs => ?_⟩
          exact absurd (hv0s j (hs0 j hjs)) hnv
        · have hd := h.done j' hlt e
          refine ⟨hvmono _ hd.1, fun hjs => ?_⟩
          rw [hsx j' hjs]; exact hd.2 hjs
      · have := h.more; omega
  · rename_i hge
    have hvj : Vis s j := by unfold Vis; omega
    have hjst : j ∈ s.stack := by
      by_contra hns
      apply hc
      refine ⟨hvj, Or.inl ?_⟩
      by_contra ho
      exact hns ((h.inv.onS j hvj).1 (by simpa using ho))
    split
    · rename_i hm
      have hi' : ∀ x, ((Verif.Tarjan.setMin s i (s.node j).index).node x).index
          = (s.node x).index := by
        intro x; unfold Verif.Tarjan.setMin
        by_cases hx : x = i
        · subst hx; simp
        · simp [hx]
      have hmi : ((Verif.Tarjan.setMin s i (s.node j).index).node i).minIndex
          = (s.node j).index := by
        simp [Verif.Tarjan.setMin]
      refine ⟨_, new, cs, rfl, ?_, by simp [Verif.Tarjan.setMin]⟩
      refine
      { inv := h.inv.setMin i _
        visI := ?_, keep := ?_, st := h.st
        idx := ?_, mle := ?_, wit := ?_, edge := ?_, done := ?_, more := h.more }
      · unfold Vis; rw [hi']; exact h.visI
      · intro x hx
        have hxi : x ≠ i := by rintro rfl; exact h0i hx
        simp only [Verif.Tarjan.setMin, ne_eq, hxi, not_false_eq_true, Function.update_of_ne]
        exact h.keep x hx
      · rw [hi']; exact h.idx
      · rw [hmi, hi']; have := h.mle; omega
      · refine ⟨j, ?_, by rw [hmi, hi'], ReflTransGen.single hE⟩
        by_contra hny
        have hyn : j ∈ new := by
          rw [h.st] at hjst
          rcases List.mem_append.1 hjst with hy | hy
          · exact hy
          · exact absurd hy hny
        have hd := h.inv.dec
        rw [h.st, List.pairwise_append] at hd
        have := hd.2.2 j hyn i (by simp)
        have := h.mle; omega
      · intro x hx y hy e
        rw [hmi, hi']
        have := h.edge x hx y hy e; omega
      · intro j' hj' e
        rw [hmi, hi']
        rcases Nat.eq_or_lt_of_le hj' with heq | hlt
        · subst heq
          exact ⟨by unfold Vis; rw [hi']; exact hvj, fun _ => le_refl _⟩
        · have hd := h.done j' hlt e
          refine ⟨by unfold Vis; rw [hi']; exact hd.1, fun hjs => ?_⟩
          have := hd.2 hjs; omega
    · rename_i hm
      exact ⟨s, new, cs, rfl, ext (fun _ => ⟨hvj, fun _ => by omega⟩), le_refl _⟩

theorem scan_spec {fuel : Nat} {r : Nat → St → Option St} (hr : Works f n fuel r)
    {s0 : St} {g : List Nat} {cs0 : List (List Nat)} {i : Nat}
    (hin : i < n) (hg : ∀ x ∈ g, Reach f n x i) (h0 : Inv f n s0 g cs0) (h0i : ¬ Vis s0 i) :
    ∀ (k : Nat) (s : St) (new : List Nat) (cs : List (List Nat)), k ≤ n →
      n ≤ fuel + (s.stack.length + cs.flatten.length) →
      SInv f n s0 g cs0 i k s new cs →
      ∃ s' new' cs', scan f r i k s = some s' ∧ SInv f n s0 g cs0 i 0 s' new' cs' := by
  intro k
  induction k with
  | zero => intro s new cs _ _ h; exact ⟨s, new, cs, rfl, h⟩
  | succ j ih =>
    intro s new cs hk hfuel h
    obtain ⟨s', new', cs', hs, h', hmono⟩ := scanStep_spec hr hin hk hg h0 h0i hfuel h
    simp only [scan, hs]
    exact ih s' new' cs' (by omega) (by omega) h'

theorem push_spec {s0 : St} {g : List Nat} {cs : List (List Nat)} {i : Nat}
    (hin : i < n) (hg : ∀ x ∈ g, Reach f n x i) (h0 : Inv f n s0 g cs) (h0i : ¬ Vis s0 i) :
    ∃ s1, push s0 i = some s1 ∧ s1.len = n ∧ SInv f n s0 g cs i n s1 [] cs := by
  have hni : i ∉ s0.stack ++ cs.flatten := fun h => h0i ((h0.vis i).2 h)
  have hlen := length_lt_of_nodup h0.nodup h0.lt hin hni
  rw [List.length_append] at hlen
  unfold push
  rw [if_pos (by rw [h0.len]; omega)]
  refine ⟨_, rfl, h0.len, ?_⟩
  have hk : ∀ x, x ≠ i → (Function.update s0.node i ⟨s0.index, s0.index, true⟩) x = s0.node x :=
    fun x hx => by simp [hx]
  have hnx : ∀ x, x ∈ s0.stack ++ cs.flatten → x ≠ i := fun x hx he => hni (he ▸ hx)
  have hvx : ∀ x, Vis s0 x → x ≠ i := fun x hx he => h0i (he ▸ hx)
  have hsx : ∀ x ∈ s0.stack, x ≠ i := fun x hx => hnx x (by simp [hx])
  refine
  { inv :=
    { len := h0.len, order := h0.order, vis := ?_, lt := ?_, nodup := ?_, onS := ?_, below := ?_
      dec := ?_, gst := ?_, black := ?_, up := ?_, down := ?_, ne := h0.ne, scc := h0.scc
      closed := h0.closed }
    visI := by simp [Vis]
    keep := fun x hx => hk x (hvx x hx)
    st := rfl
    idx := by simp
    mle := by simp
    wit := ⟨i, by simp, by simp, ReflTransGen.refl⟩
    edge := by intro x hx; simp at hx
    done := by intro j hj e; have := e.2.1; omega
    more := by simp }
  · intro x
    by_cases hx : x = i
    · subst hx; simp [Vis]
    · have := h0.vis x
      simp only [Vis, hk x hx] at this ⊢
      simp only [List.cons_append, List.mem_cons, hx, false_or]; exact this
  · intro x hx
    simp only [List.cons_append, List.mem_cons] at hx
    rcases hx with rfl | hx
    · exact hin
    · exact h0.lt x hx
  · simpa using ⟨by simpa using hni, by simpa using h0.nodup⟩
  · intro x hx
    by_cases hxi : x = i
    · subst hxi; simp
    · have hv : Vis s0 x := by simpa only [Vis, hk x hxi] using hx
      simp only [hk x hxi, List.mem_cons, hxi, false_or]; exact h0.onS x hv
  · intro x hx
    by_cases hxi : x = i
    · subst hxi; simp
    · have hv : Vis s0 x := by simpa only [Vis, hk x hxi] using hx
      have := h0.below x hv
      simp only [hk x hxi]; push_cast; omega
  · simp only [List.pairwise_cons]
    refine ⟨fun b hb => ?_, ?_⟩
    · rw [hk b (hsx b hb)]
      simpa using h0.below b ((h0.vis b).2 (by simp [hb]))
    · refine List.Pairwise.imp_of_mem ?_ h0.dec
      intro a b ha hb hab
      rw [hk a (hsx a ha), hk b (hsx b hb)]; exact hab
  · intro x hx
    rcases List.mem_cons.1 hx with rfl | hx
    · simp
    · simp [h0.gst x hx]
  · intro x y hx hg' e
    have hxi : x ≠ i := by rintro rfl; simp at hg'
    have hv : Vis s0 x := by simpa only [Vis, hk x hxi] using hx
    have hy := h0.black x y hv (fun h => hg' (by simp [h])) e
    simpa only [Vis, hk y (hvx y hy)] using hy
  · dsimp only
    intro x hx y hy hle
    have key : ∀ z ∈ s0.stack, Reach f n z i := by
      intro z hz
      obtain ⟨w, hw, _, hzw⟩ := h0.down z hz
      exact hzw.trans (hg w hw)
    rcases List.mem_cons.1 hx with rfl | hx'
    · rcases List.mem_cons.1 hy with rfl | hy
      · exact ReflTransGen.refl
      · rw [hk y (hsx y hy)] at hle
        have := h0.below y ((h0.vis y).2 (by simp [hy]))
        simp at hle; omega
    · rcases List.mem_cons.1 hy with rfl | hy
      · exact key x hx'
      · rw [hk x (hsx x hx'), hk y (hsx y hy)] at hle
        exact h0.up x hx' y hy hle
  · dsimp only
    intro y hy
    rcases List.mem_cons.1 hy with rfl | hy
    · exact ⟨y, by simp, le_refl _, ReflTransGen.refl⟩
    · obtain ⟨x, hx, hle, hr⟩ := h0.down y hy
      exact ⟨x, by simp [hx], by rw [hk x (hsx x (h0.gst x hx)), hk y (hsx y hy)]; exact hle, hr⟩

theorem popTo_spec (i : Nat) (st : List Nat) :
    ∀ (new : List Nat) (s : St), i ∉ new →
      s.order.length + new.length + 2 ≤ 2 * s.len →
      ∃ s', popTo i (new ++ i :: st) s = some s' ∧ s'.stack = st ∧ s'.len = s.len ∧
        s'.index = s.index ∧
        s'.order = s.order ++ ((new ++ [i]).map (fun x : Nat => (x : Int)) ++ [-1]) ∧
        (∀ x, (s'.node x).index = (s.node x).index ∧
          (s'.node x).minIndex = (s.node x).minIndex) ∧
        (∀ x, x ∈ new ++ [i] → (s'.node x).onStack = false) ∧
        (∀ x, x ∉ new ++ [i] → s'.node x = s.node x) := by
  intro new
  induction new with
  | nil =>
    intro s _ hl
    simp only [List.length_nil, Nat.add_zero] at hl
    simp only [List.nil_append, popTo, emit]
    rw [if_pos (by simpa using by omega)]
    simp only [if_true]
    rw [if_pos (by simp; omega)]
    refine ⟨_, rfl, rfl, rfl, rfl, by simp, ?_, ?_, ?_⟩
    · intro x
      by_cases hx : x = i
      · subst hx; simp
      · simp [hx]
    · intro x hx; simp at hx; subst hx; simp
    · intro x hx; simp at hx; simp [hx]
  | cons j new ih =>
    intro s hi hl
    simp only [List.mem_cons, not_or] at hi
    simp only [List.length_cons] at hl
    simp only [List.cons_append, popTo, emit]
    rw [if_pos (by simpa using by omega)]
    simp only
    rw [if_neg (fun h => hi.1 h.symm)]
    obtain ⟨s', hs, h1, h2, h3, h4, h5, h6, h7⟩ := ih
      { s with
        stack := new ++ i :: st
        node := Function.update s.node j { s.node j with onStack := false }
        order := s.order ++ [(j : Int)] } hi.2 (by simp; omega)
    refine ⟨s', hs, h1, h2, h3, by rw [h4]; simp, ?_, ?_, ?_⟩
    · intro x
      have := h5 x
      by_cases hx : x = j
      · subst hx; simpa using this
      · simpa [hx] using this
    · intro x hx
      rcases List.mem_cons.1 hx with rfl | hx
      · by_cases hm : x ∈ new ++ [i]
        · exact h6 x hm
        · rw [h7 x hm]; simp
      · exact h6 x hx
    · intro x hx
      simp only [List.mem_cons, not_or] at hx
      rw [h7 x hx.2]; simp [hx.1]

theorem flat_append (cs : List (List Nat)) (c : List Nat) :
    flat (cs ++ [c]) = flat cs ++ (c.map (fun x : Nat => (x : Int)) ++ [-1]) := by
  simp [flat]

/-- The end of the call on `i` when it is not the root of a component. -/
theorem finish_keep {s0 s : St} {g : List Nat} {cs0 cs : List (List Nat)} {i : Nat}
    {new : List Nat} (h0 : Inv f n s0 g cs0) (h : SInv f n s0 g cs0 i 0 s new cs)
    (hne : (s.node i).index ≠ (s.node i).minIndex) :
    Post f n s0 g cs0 i s (new ++ [i]) cs := by
  have hs0 : ∀ y ∈ s0.stack, s.node y = s0.node y :=
    fun y hy => h.keep y ((h0.vis y).2 (by simp [hy]))
  obtain ⟨y, hy, hyi, hry⟩ := h.wit
  have hy0 : y ∈ s0.stack := by
    rcases List.mem_cons.1 hy with rfl | hy
    · exact absurd hyi hne
    · exact hy
  have hmle := h.mle
  refine
  { inv :=
    { h.inv with
      gst := fun x hx => h.inv.gst x (by simp [hx])
      black := ?_, down := ?_ }
    visI := h.visI, keep := h.keep, st := by rw [h.st]; simp, mle := h.mle, wit := Or.inr ?_
    popped := by simp
    newer := by rw [h.idx]
    edge := ?_, more := h.more }
  · intro x z hx hg e
    by_cases hxi : x = i
    · subst hxi; exact (h.done z (Nat.zero_le _) e).1
    · exact h.inv.black x z hx (by simp [hxi, hg]) e
  · intro z hz
    obtain ⟨x, hx, hle, hr⟩ := h.inv.down z hz
    rcases List.mem_cons.1 hx with rfl | hx
    · obtain ⟨w, hw, hwle, hwr⟩ := h0.down y hy0
      refine ⟨w, hw, ?_, (hr.trans hry).trans hwr⟩
      rw [hs0 w (h0.gst w hw)]
      rw [hs0 y hy0] at hyi
      omega
    · exact ⟨x, hx, hle, hr⟩
  · exact ⟨y, hy0, by rw [← hs0 y hy0]; exact hyi, hry⟩
  · intro x hx z hz e
    rw [← hs0 z hz]
    rcases List.mem_append.1 hx with hx | hx
    · exact h.edge x hx z hz e
    · simp at hx; subst hx
      exact (h.done z (Nat.zero_le _) e).2 hz

/-- The end of the call on `i` when it is the root of a component. -/
theorem finish_pop {s0 s : St} {g : List Nat} {cs0 cs : List (List Nat)} {i : Nat}
    {new : List Nat} (hg : ∀ x ∈ g, Reach f n x i)
    (h0 : Inv f n s0 g cs0) (h0i : ¬ Vis s0 i) (h : SInv f n s0 g cs0 i 0 s new cs)
    (heq : (s.node i).index = (s.node i).minIndex) :
    ∃ s', popTo i s.stack s = some s' ∧
      Post f n s0 g cs0 i s' [] (cs ++ [new ++ [i]]) := by
  have hnd := h.inv.nodup
  have hst := h.st
  have hlenN := length_le_of_nodup h.inv.nodup h.inv.lt
  have hlencs := length_le_flatten cs h.inv.ne
  have hordl : s.order.length = cs.flatten.length + cs.length := by
    rw [h.inv.order, flat_length]
  have hstl : s.stack.length = new.length + 1 + s0.stack.length := by
    rw [hst]; simp; omega
  rw [List.length_append] at hlenN
  have hnd' : (new ++ i :: s0.stack).Nodup := by
    rw [← hst]; exact (List.nodup_append.1 hnd).1
  have hin : i ∉ new := by
    intro hi
    have := (List.nodup_append.1 hnd').2.2 i hi i (by simp)
    exact this rfl
  obtain ⟨s', hs', h1, h2, h3, h4, h5, h6, h7⟩ := popTo_spec i s0.stack new s hin (by
    rw [h.inv.len]; omega)
  rw [hst]
  refine ⟨s', hs', ?_⟩
  have hvis : ∀ x, Vis s' x ↔ Vis s x := by intro x; simp [Vis, (h5 x).1]
  -- membership facts
  have hCs : ∀ x ∈ new ++ [i], x ∈ s.stack := by
    intro x hx; rw [hst]
    rcases List.mem_append.1 hx with hx | hx
    · simp [hx]
    · simp at hx; simp [hx]
  have hs0s : ∀ x ∈ s0.stack, x ∈ s.stack := by intro x hx; rw [hst]; simp [hx]
  have hsplit : ∀ x ∈ s.stack, x ∈ new ++ [i] ∨ x ∈ s0.stack := by
    intro x hx; rw [hst] at hx
    rcases List.mem_append.1 hx with hx | hx
    · left; simp [hx]
    · rcases List.mem_cons.1 hx with rfl | hx
      · left; simp
      · right; exact hx
  have hdisj : ∀ x ∈ new ++ [i], x ∉ s0.stack := by
    intro x hx hx0
    have hnd2 : ((new ++ [i]) ++ s0.stack).Nodup := by simpa using hnd'
    exact (List.nodup_append.1 hnd2).2.2 x hx x hx0 rfl
  have hs0v : ∀ y ∈ s0.stack, Vis s0 y := fun y hy => (h0.vis y).2 (by simp [hy])
  have hs0n : ∀ y ∈ s0.stack, s.node y = s0.node y := fun y hy => h.keep y (hs0v y hy)
  have hv : ∀ x ∈ s.stack, Vis s x := fun x hx => (h.inv.vis x).2 (by simp [hx])
  have hidxC : ∀ x ∈ new ++ [i], (s.node i).index ≤ (s.node x).index := by
    intro x hx
    rcases List.mem_append.1 hx with hx | hx
    · have hd := h.inv.dec
      rw [hst, List.pairwise_append] at hd
      exact le_of_lt (hd.2.2 x hx i (by simp))
    · simp at hx; subst hx; exact le_refl _
  have hidx0 : ∀ y ∈ s0.stack, (s.node y).index < (s.node i).index := by
    intro y hy
    rw [hs0n y hy, h.idx]; exact h0.below y (hs0v y hy)
  -- the popped part is closed together with the earlier components
  have hstep : ∀ x ∈ new ++ [i], ∀ y, Follows f n x y → y ∈ new ++ [i] ∨ y ∈ cs.flatten := by
    intro x hx y e
    have hvy : Vis s y ∧ (y ∈ s0.stack → (s.node i).minIndex ≤ (s.node y).index) := by
      rcases List.mem_append.1 hx with hx' | hx'
      · refine ⟨?_, fun hy => h.edge x hx' y hy e⟩
        have hxi : x ≠ i := by rintro rfl; exact hin hx'
        refine h.inv.black x y (hv x (hCs x hx)) ?_ e
        intro hxg
        rcases List.mem_cons.1 hxg with hxg | hxg
        · exact hxi hxg
        · exact hdisj x hx (h0.gst x hxg)
      · simp at hx'; subst hx'; exact h.done y (Nat.zero_le _) e
    rcases List.mem_append.1 ((h.inv.vis y).1 hvy.1) with hy | hy
    · rcases hsplit y hy with hy | hy
      · exact Or.inl hy
      · have := hvy.2 hy; have := hidx0 y hy; omega
    · exact Or.inr hy
  have hcsclosed : ∀ x ∈ cs.flatten, ∀ y, Follows f n x y → y ∈ cs.flatten := by
    have := h.inv.closed cs.length
    simpa using this
  have hCclosed : ∀ x, (x ∈ new ++ [i] ∨ x ∈ cs.flatten) → ∀ y, Follows f n x y →
      (y ∈ new ++ [i] ∨ y ∈ cs.flatten) := by
    rintro x (hx | hx) y e
    · exact hstep x hx y e
    · exact Or.inr (hcsclosed x hx y e)
  have hCi : ∀ x ∈ new ++ [i], Reach f n i x ∧ Reach f n x i := by
    intro x hx
    have hist : i ∈ s.stack := by rw [hst]; simp
    refine ⟨h.inv.up i hist x (hCs x hx) (hidxC x hx), ?_⟩
    obtain ⟨w, hw, _, hr⟩ := h.inv.down x (hCs x hx)
    rcases List.mem_cons.1 hw with rfl | hw
    · exact hr
    · exact hr.trans (hg w hw)
  have hscc : ∀ x ∈ new ++ [i], ∀ y, y ∈ new ++ [i] ↔ Reach f n x y ∧ Reach f n y x := by
    intro x hx y
    constructor
    · intro hy
      exact ⟨(hCi x hx).2.trans (hCi y hy).1, (hCi y hy).2.trans (hCi x hx).1⟩
    · rintro ⟨hxy, hyx⟩
      rcases closed_reach hCclosed hxy (Or.inl hx) with hy | hy
      · exact hy
      · have hxc := closed_reach hcsclosed hyx hy
        exact absurd rfl ((List.nodup_append.1 hnd).2.2 x (hCs x hx) x hxc)
  have hperm : (s0.stack ++ (cs ++ [new ++ [i]]).flatten).Perm (s.stack ++ cs.flatten) := by
    rw [hst]
    simp only [List.flatten_append, List.flatten_cons, List.flatten_nil, List.append_nil]
    have e : new ++ i :: s0.stack ++ cs.flatten = (new ++ [i]) ++ (s0.stack ++ cs.flatten) := by
      simp
    rw [e, ← List.append_assoc]
    exact List.perm_append_comm
  have hkeep : ∀ x, Vis s0 x → s'.node x = s0.node x := by
    intro x hx
    rw [← h.keep x hx]
    by_cases hxC : x ∈ new ++ [i]
    · exfalso
      have hxst : x ∉ s0.stack := hdisj x hxC
      have h1 := (h0.vis x).1 hx
      have h2 := h0.below x hx
      have h3 := hidxC x hxC
      rw [h.keep x hx, h.idx] at h3
      omega
    · exact h7 x hxC
  have hnode0 : ∀ y ∈ s0.stack, (s'.node y).index = (s0.node y).index :=
    fun y hy => by rw [hkeep y (hs0v y hy)]
  refine
  { inv :=
    { len := by rw [h2, h.inv.len]
      order := by rw [h4, flat_append, h.inv.order]
      vis := ?_, lt := ?_, nodup := ?_, onS := ?_, below := ?_, dec := ?_, gst := ?_, black := ?_
      up := ?_, down := ?_, ne := ?_, scc := ?_, closed := ?_ }
    visI := (hvis i).2 h.visI
    keep := hkeep
    st := by rw [h1]; simp
    mle := by rw [(h5 i).1, (h5 i).2]; exact h.mle
    wit := Or.inl rfl
    popped := fun _ => by rw [(h5 i).1, (h5 i).2]; exact heq.symm
    newer := by rw [(h5 i).1, h.idx]
    edge := by intro x hx; simp at hx
    more := ?_ }
  · intro x
    rw [hvis, h1, hperm.mem_iff]; exact h.inv.vis x
  · intro x hx
    rw [h1, hperm.mem_iff] at hx; exact h.inv.lt x hx
  · rw [h1, hperm.nodup_iff]; exact hnd
  · intro x hx
    rw [h1]
    by_cases hxC : x ∈ new ++ [i]
    · rw [h6 x hxC]
      simp only [Bool.false_eq_true, false_iff]; exact hdisj x hxC
    · rw [h7 x hxC, h.inv.onS x ((hvis x).1 hx)]
      constructor
      · intro hxs
        rcases hsplit x hxs with hx | hx
        · exact absurd hx hxC
        · exact hx
      · exact hs0s x
  · intro x hx
    rw [(h5 x).1, h3]; exact h.inv.below x ((hvis x).1 hx)
  · rw [h1]
    refine List.Pairwise.imp_of_mem ?_ h0.dec
    intro a b ha hb hab
    rw [hnode0 a ha, hnode0 b hb]; exact hab
  · rw [h1]; exact h0.gst
  · intro x y hx hxg e
    rw [hvis] at hx ⊢
    by_cases hxi : x = i
    · subst hxi; exact (h.done y (Nat.zero_le _) e).1
    · exact h.inv.black x y hx (by simp [hxi, hxg]) e
  · rw [h1]
    intro x hx y hy hle
    rw [hnode0 x hx, hnode0 y hy] at hle
    exact h0.up x hx y hy hle
  · rw [h1]
    intro y hy
    obtain ⟨x, hx, hle, hr⟩ := h0.down y hy
    exact ⟨x, hx, by rw [hnode0 x (h0.gst x hx), hnode0 y hy]; exact hle, hr⟩
  · intro c hc
    rcases List.mem_append.1 hc with hc | hc
    · exact h.inv.ne c hc
    · simp at hc; rw [hc]; simp
  · intro c hc
    rcases List.mem_append.1 hc with hc | hc
    · exact h.inv.scc c hc
    · simp only [List.mem_singleton] at hc; rw [hc]; exact hscc
  · intro k x hx y e
    by_cases hk : k ≤ cs.length
    · rw [List.take_append_of_le_length hk] at hx ⊢
      exact h.inv.closed k x hx y e
    · rw [List.take_of_length_le (by simp; omega)] at hx ⊢
      simp only [List.flatten_append, List.flatten_cons, List.flatten_nil, List.append_nil,
        List.mem_append (s := cs.flatten)] at hx ⊢
      exact (hCclosed x hx.symm y e).symm
  · have := hperm.length_eq
    have := h.more
    rw [h1]
    simp only [List.length_append] at *
    omega

theorem tarjan_works (f : Nat → Nat → Bool) (n : Nat) : ∀ fuel, Works f n fuel (tarjan f fuel) := by
  intro fuel
  induction fuel with
  | zero =>
    intro i s g cs h hin hnv _ hfuel
    exfalso
    have hni : i ∉ s.stack ++ cs.flatten := fun hi => hnv ((h.vis i).2 hi)
    have := length_lt_of_nodup h.nodup h.lt hin hni
    rw [List.length_append] at this; omega
  | succ fuel ih =>
    intro i s g cs h hin hnv hg hfuel
    obtain ⟨s1, hp, hl, hS⟩ := push_spec hin hg h hnv
    have hmore := hS.more
    obtain ⟨s2, new, cs2, hsc, hS2⟩ := scan_spec ih hin hg h hnv n s1 [] cs (le_refl _)
      (by omega) hS
    simp only [tarjan, hp, hl, hsc]
    by_cases hne : (s2.node i).index ≠ (s2.node i).minIndex
    · rw [if_pos hne]
      exact ⟨s2, _, cs2, rfl, finish_keep h hS2 hne⟩
    · rw [if_neg hne]
      obtain ⟨s', hs', hP⟩ := finish_pop hg h hnv hS2 (not_not.1 hne)
      exact ⟨s', [], _, hs', hP⟩

theorem drive_spec (f : Nat → Nat → Bool) (n : Nat) : ∀ (k : Nat) (s : St) (cs : List (List Nat)),
    k ≤ n → Inv f n s [] cs → (∀ j, k ≤ j → j < n → Vis s j) →
    ∃ s' cs', drive f k s = some s' ∧ Inv f n s' [] cs' ∧ ∀ j, j < n → Vis s' j := by
  intro k
  induction k with
  | zero => intro s cs _ h hd; exact ⟨s, cs, rfl, h, fun j hj => hd j (Nat.zero_le _) hj⟩
  | succ i ih =>
    intro s cs hk h hd
    unfold drive
    split
    · rename_i hv
      exact ih s cs (by omega) h (by
        intro j hj hjn
        rcases Nat.eq_or_lt_of_le hj with heq | hlt
        · subst heq; exact hv
        · exact hd j hlt hjn)
    · rename_i hv
      obtain ⟨s', new, cs', hr, hP⟩ := tarjan_works f n s.len i s [] cs h (by omega) hv
        (by simp) (by rw [h.len]; omega)
      rw [hr]
      exact ih s' cs' (by omega) hP.inv (by
        intro j hj hjn
        rcases Nat.eq_or_lt_of_le hj with heq | hlt
        · subst heq; exact hP.visI
        · have := hd j hlt hjn
          unfold Vis; rw [hP.keep j this]; exact this)

theorem takeComp_flat (c : List Nat) (l : List Int) :
    takeComp (c.map (fun x : Nat => (x : Int)) ++ [-1] ++ l) = some (c.map (fun x : Nat => (x : Int)), l) := by
  induction c with
  | nil => simp [takeComp]
  | cons x c ih =>
    simp only [List.map_cons, List.cons_append, takeComp]
    rw [if_neg (by omega), ih]

theorem extract_flat : ∀ (cs : List (List Nat)) (fuel : Nat), (∀ c ∈ cs, c ≠ []) →
    cs.length ≤ fuel →
    extract fuel cs.flatten.length (flat cs)
      = some (cs.map (fun c => (c.map (fun x : Nat => (x : Int))).insertionSort (· ≤ ·))) := by
  intro cs
  induction cs with
  | nil => intro fuel _ _; cases fuel <;> simp [extract]
  | cons c cs ih =>
    intro fuel hne hl
    have hc : 0 < c.length := List.length_pos_of_ne_nil (hne c (by simp))
    simp only [List.length_cons] at hl
    obtain ⟨fuel, rfl⟩ : ∃ k, fuel = k + 1 := ⟨fuel - 1, by omega⟩
    obtain ⟨m, hm⟩ : ∃ m, (c :: cs).flatten.length = m + 1 :=
      ⟨(c :: cs).flatten.length - 1, by
        simp only [List.flatten_cons, List.length_append]; omega⟩
    have hm' : m + 1 - c.length = cs.flatten.length := by
      rw [← hm]; simp only [List.flatten_cons, List.length_append]; omega
    rw [hm]
    have hf : flat (c :: cs) = c.map (fun x : Nat => (x : Int)) ++ [-1] ++ flat cs := by simp [flat]
    simp only [extract, hf, takeComp_flat, List.length_map, hm']
    rw [ih fuel (fun c hc => hne c (by simp [hc])) (by omega)]
    rfl

/-- C21.  For every number `n` of loops and every outcome `f` of the `follows` tests, forming the
components terminates and writes only inside of its buffers (`components` is defined), and the
result lists the positions `0, ..., n - 1` once each, grouped such that
* two loops are in the same component exactly if each follows the other directly or indirectly;
* inside of a component the loops are in their original order;
* no component follows, directly or indirectly, a later one. -/
theorem C21_components (f : Nat → Nat → Bool) (n : Nat) (junk : Nat → Int × Bool) :
    ∃ cs : List (List Nat),
      components f n junk = some (cs.map (fun c => c.map (fun x : Nat => (x : Int)))) ∧
      cs.flatten.Perm (List.range n) ∧
      (∀ c ∈ cs, c ≠ [] ∧ c.Pairwise (· < ·)) ∧
      (∀ c ∈ cs, ∀ x ∈ c, ∀ y, y ∈ c ↔ Reach f n x y ∧ Reach f n y x) ∧
      cs.Pairwise (fun c d => ∀ x ∈ c, ∀ y ∈ d, ¬ Reach f n x y) := by
  have h0 : Inv f n (alloc n junk) [] [] := by
    constructor <;> simp [alloc, flat, Vis]
  obtain ⟨s, cs, hd, h, hall⟩ := drive_spec f n n (alloc n junk) [] (le_refl _) h0
    (by intro j hj hjn; omega)
  have hst : s.stack = [] := by
    rcases hs : s.stack with _ | ⟨y, l⟩
    · rfl
    · obtain ⟨x, hx, _⟩ := h.down y (by rw [hs]; simp)
      simp at hx
  have hnd := h.nodup
  have hlt := h.lt
  have hvis := h.vis
  rw [hst, List.nil_append] at hnd hlt
  simp only [hst, List.nil_append] at hvis
  have hperm : cs.flatten.Perm (List.range n) := by
    rw [List.perm_ext_iff_of_nodup hnd List.nodup_range]
    intro x
    rw [List.mem_range]
    exact ⟨hlt x, fun hx => (hvis x).1 (hall x hx)⟩
  have hlen : cs.flatten.length = n := by simpa using hperm.length_eq
  have hsorted : ∀ c : List Nat, (c.map (fun x : Nat => (x : Int))).insertionSort (· ≤ ·)
      = (c.insertionSort (· ≤ ·)).map (fun x : Nat => (x : Int)) := by
    intro c
    refine (List.map_insertionSort (f := fun x : Nat => (x : Int)) (· ≤ ·) (· ≤ ·) c ?_).symm
    intro a _ b _; simp
  refine ⟨cs.map (fun c => c.insertionSort (· ≤ ·)), ?_, ?_, ?_, ?_, ?_⟩
  · unfold components
    rw [hd]
    simp only [h.order]
    have := extract_flat cs n h.ne (by have := length_le_flatten cs h.ne; omega)
    rw [hlen] at this
    rw [this]
    simp [hsorted, Function.comp_def]
  · refine List.Perm.trans ?_ hperm
    clear * -
    induction cs with
    | nil => simp
    | cons c cs ih =>
      simp only [List.map_cons, List.flatten_cons]
      exact (List.perm_insertionSort _ c).append ih
  · intro c hc
    obtain ⟨d, hd, rfl⟩ := List.mem_map.1 hc
    have hdn : d.Nodup := (List.nodup_flatten.1 hnd).1 d hd
    refine ⟨?_, ?_⟩
    · intro e
      have := List.length_insertionSort (· ≤ ·) d
      rw [e] at this
      exact h.ne d hd (List.length_eq_zero_iff.1 (by simpa using this.symm))
    · have h1 : (d.insertionSort (· ≤ ·)).Pairwise (· ≤ ·) := List.pairwise_insertionSort _ d
      have h2 : (d.insertionSort (· ≤ ·)).Pairwise (· ≠ ·) :=
        (List.perm_insertionSort (· ≤ ·) d).nodup_iff.2 hdn
      exact (h1.and h2).imp (fun ⟨a, b⟩ => lt_of_le_of_ne a b)
  · intro c hc x hx y
    obtain ⟨d, hd, rfl⟩ := List.mem_map.1 hc
    rw [List.mem_insertionSort] at hx ⊢
    exact h.scc d hd x hx y
  · rw [List.pairwise_map]
    have key : cs.Pairwise (fun c d => ∀ x ∈ c, ∀ y ∈ d, ¬ Reach f n x y) := by
      have hcl := h.closed
      clear * - hcl hnd
      rw [List.pairwise_iff_getElem]
      intro a b ha hb hab x hx y hy hr
      have h1 : x ∈ (cs.take (a + 1)).flatten := by
        rw [List.mem_flatten]
        exact ⟨cs[a], List.mem_take_iff_getElem.2 ⟨a, by omega, rfl⟩, hx⟩
      have h2 := closed_reach (hcl (a + 1)) hr h1
      have h3 : y ∈ (cs.drop (a + 1)).flatten := by
        rw [List.mem_flatten]
        refine ⟨cs[b], ?_, hy⟩
        rw [List.mem_drop_iff_getElem]
        exact ⟨b - (a + 1), by omega, by congr 1; omega⟩
      rw [← List.take_append_drop (a + 1) cs, List.flatten_append] at hnd
      exact (List.nodup_append.1 hnd).2.2 y h2 y h3 rfl
    refine key.imp ?_
    intro c d hcd x hx y hy
    rw [List.mem_insertionSort] at hx hy
    exact hcd x hx y hy

/-- A case with a component of two loops between two single ones: 3 follows 1 and 2, 1 and 2 follow
each other, and both follow 0. -/
example : components (fun i j => (i, j) ∈ [(3, 1), (3, 2), (1, 2), (2, 1), (1, 0)]) 4
    (fun _ => (7, true)) = some [[0], [1, 2], [3]] := by decide

end Verif.Props.Tarjan
