import Verif.Lemmas.GenPieces

/-! # The loops of a level are not unions -/

namespace Verif.Gen

open Verif.Loop Verif.Props.Separate Verif.ScalarSort Verif.Props.ScalarSort

variable {D S C Par : Type} {o : DomOps D S C} {mem : D → Par × Pt → Prop} {ok : Nat → S → Par × Pt → Prop}

theorem mergeSplit_inner (G : GenLaws o mem) {P : Loop D S → Prop} {opt : Options} {t : D}
    {inner : List (Loop D S)} (hP : ∀ i ∈ inner, P i) : ∀ (fuel : Nat) (s : D)
    (res out : List (Loop D S)),
      (∀ r ∈ res, o.isConvex r.dom = true ∧ ∀ i ∈ r.inner, P i) →
      mergeSplit o opt t inner fuel s res = some out →
      ∀ r ∈ out, o.isConvex r.dom = true ∧ ∀ i ∈ r.inner, P i := by
  have hb : ∀ d, o.isConvex (boundingDomain o opt d) = true := by
    intro d
    unfold boundingDomain
    split
    · exact G.isConvex_simpleConvex d
    · exact G.isConvex_convex d
  intro fuel
  induction fuel with
  | zero => intro s res out _ h; simp [mergeSplit] at h
  | succ fuel ih =>
    intro s res out hres h
    have hadd : ∀ d, ∀ r ∈ (if o.isEmpty (boundingDomain o opt d) = true then res
        else Loop.mk (boundingDomain o opt d) false none none inner :: res),
        o.isConvex r.dom = true ∧ ∀ i ∈ r.inner, P i := by
      intro d r hr
      split at hr
      · exact hres r hr
      · rcases List.mem_cons.1 hr with rfl | hr
        · exact ⟨hb d, hP⟩
        · exact hres r hr
    rw [mergeSplit] at h
    split at h
    · dsimp only at h
      have := hadd (o.inter s t)
      split at h
      · rename_i he
        obtain rfl := Option.some.inj h
        exact hres
      · rename_i he
        obtain rfl := Option.some.inj h
        rw [if_neg he] at this
        exact this
    · exact ih _ _ _ (hadd _) h

theorem sort_mem {L : Nat} {ls r : List (Loop D S)} (h : sort o L ls = some r) : ∀ l ∈ r, l ∈ ls := by
  unfold sort at h
  split at h
  · obtain rfl := Option.some.inj h
    exact fun l hl => hl
  · split at h
    · obtain rfl := Option.some.inj h
      exact fun l hl => hl
    · split at h
      · exact absurd h (by simp)
      · obtain rfl := Option.some.inj h
        intro l hl
        obtain ⟨i, _, hi⟩ := List.mem_filterMap.1 hl
        exact List.mem_of_getElem? hi

theorem bounding_convex (G : GenLaws o mem) (opt : Options) (d : D) :
    o.isConvex (boundingDomain o opt d) = true := by
  unfold boundingDomain
  split
  · exact G.isConvex_simpleConvex d
  · exact G.isConvex_convex d

/-- The domains after step 3 are not unions. -/
theorem step3_convex (G : GenLaws o mem) {L s fuel : Nat} {c : Ctx} {first : Int}
    {ls Q : List (Loop D S)} {sep cst : Bool}
    (h : step3 o fuel c L s first ls = some (Q, sep, cst)) : ∀ q ∈ Q, o.isConvex q.dom = true := by
  unfold step3 at h
  split at h
  · simp only [Option.some.injEq, Prod.mk.injEq] at h
    obtain ⟨rfl, _, _⟩ := h
    intro q hq
    cases ls with
    | nil => simp [constant] at hq
    | cons l ls =>
      rw [constant, List.mem_singleton] at hq
      subst hq
      exact G.isConvex_simpleConvex _
  · split at h
    · rw [Option.map_eq_some_iff] at h
      obtain ⟨r, hr, h⟩ := h
      simp only [Prod.mk.injEq] at h
      obtain ⟨rfl, _, _⟩ := h
      cases ls with
      | nil =>
        rw [merge] at hr
        obtain rfl := Option.some.inj hr
        simp
      | cons l ls =>
        rw [merge] at hr
        split at hr
        · rename_i hc
          obtain rfl := Option.some.inj hr
          intro q hq
          rw [List.mem_singleton.1 hq]
          exact hc.2
        · dsimp only at hr
          split at hr
          · intro q hq
            exact (mergeSplit_inner G (P := fun _ => True) (by simp) _ _ _ _ (by simp) hr q hq).1
          · obtain rfl := Option.some.inj hr
            intro q hq
            rw [List.mem_singleton.1 hq]
            exact bounding_convex G _ _
    · rw [Option.map_eq_some_iff] at h
      obtain ⟨r, hr, h⟩ := h
      simp only [Prod.mk.injEq] at h
      obtain ⟨rfl, _, _⟩ := h
      exact (C17_separate G.toSetLaws _ _ _ hr).1

/-- The domains after steps 3 and 3b are not unions. -/
theorem step3b_convex {L s : Nat} {c : Ctx} {sep : Bool} {Q R : List (Loop D S)}
    (hQ : ∀ q ∈ Q, o.isConvex q.dom = true) (h : step3b o c L s sep Q = some R) :
    ∀ r ∈ R, o.isConvex r.dom = true := by
  unfold step3b at h
  split at h
  · exact absurd h (by simp)
  · rename_i r hr
    have hri : ∀ q ∈ restrictInner o r, o.isConvex q.dom = true := by
      intro q hq
      unfold restrictInner at hq
      obtain ⟨l, hl, hlq⟩ := List.mem_filterMap.1 hq
      split at hlq
      · exact absurd hlq (by simp)
      · obtain rfl := Option.some.inj hlq
        exact hQ l (sort_mem hr l hl)
    split at h
    · unfold specialize at h
      split at h
      · exact absurd h (by simp)
      · rename_i ds hds
        obtain rfl := Option.some.inj h
        have hd : ∀ q ∈ ds, o.isConvex q.dom = true := by
          intro q hq
          obtain ⟨a, ha, bs, hbs, hqb⟩ := flatMapM_mem hds hq
          unfold decomposeOne at hbs
          split at hbs
          · obtain rfl := Option.some.inj hbs
            rw [List.mem_singleton.1 hqb]
            exact hri a ha
          · split at hbs
            · exact absurd hbs (by simp)
            · obtain rfl := Option.some.inj hbs
              obtain ⟨c, _, rfl⟩ := List.mem_map.1 hqb
              exact hri a ha
        intro q hq
        unfold removeEmpty at hq
        obtain ⟨l, hl, rfl⟩ := List.mem_map.1 (List.mem_filter.1 hq).1
        unfold specializeOne
        split
        · split
          · rename_i hc
            exact hc.2
          · exact hd l hl
        · exact hd l hl
    · obtain rfl := Option.some.inj h
      exact hri

end Verif.Gen
