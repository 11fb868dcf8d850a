import Verif.Lemmas.GenPieces

/-! # The order tests and the refinement of a stage -/

namespace Verif.Gen

open Verif.Loop Verif.Props.Separate Verif.ScalarSort Verif.Props.ScalarSort

variable {D S C Par : Type} {o : DomOps D S C} {mem : D → Par × Pt → Prop}
  {ok : Nat → S → Par × Pt → Prop}

/-! ## Positions in the scattering -/

/-- Level `L` and scalar position `s` belong together: among the first `L + s - 1` positions of the
scattering, `s` are scalar. -/
def Pos (flags : List Bool) (L s : Nat) : Prop :=
  (L = 0 ∧ s = 0) ∨ (0 < L ∧ (flags.take (L + s - 1)).count true = s)

/-- The array `scaldims` holds at every scalar position the length of the run that starts there
(established by `cloog_program_extract_scalars`, C37). -/
def WFScal (scaldims : List Nat) : Prop :=
  ∀ i n, scaldims[i]? = some n → n ≠ 0 →
    (∀ k, k < n → (isScal scaldims)[i + k]? = some true) ∧ (isScal scaldims)[i + n]? ≠ some true

theorem count_take_succ (flags : List Bool) (n : Nat) :
    (flags.take (n + 1)).count true =
      (flags.take n).count true + (if flags[n]? = some true then 1 else 0) := by
  rw [List.take_add_one, List.count_append]
  congr 1
  cases h : flags[n]? with
  | none => simp
  | some b => cases b <;> simp

theorem count_bool : ∀ l : List Bool, l.count false + l.count true = l.length
  | [] => rfl
  | b :: l => by
    have := count_bool l
    cases b <;> simp <;> omega

theorem pos_zero (flags : List Bool) : Pos flags 1 0 := Or.inr ⟨by omega, by simp⟩

theorem pos_next {flags : List Bool} {L s : Nat} (h : Pos flags L s)
    (hc : levelIsConstant L s flags = false) : Pos flags (L + 1) s := by
  rcases h with ⟨rfl, rfl⟩ | ⟨h0, h⟩
  · exact pos_zero flags
  · right
    refine ⟨by omega, ?_⟩
    have : ¬ flags[L + s - 1]? = some true := by
      intro hf
      rw [(isConst_iff L s flags).2 ⟨h0, hf⟩] at hc
      exact absurd hc (by simp)
    rw [show L + 1 + s - 1 = (L + s - 1) + 1 by omega, count_take_succ, h, if_neg this]
    omega

theorem pos_scal {flags : List Bool} {L s : Nat} : ∀ {k : Nat}, 0 < L → Pos flags L s →
    (∀ i, i < k → flags[L + s + i - 1]? = some true) → Pos flags L (s + k)
  | 0, _, h, _ => h
  | k + 1, h0, h, hk => by
    have ih := pos_scal h0 h (k := k) (fun i hi => hk i (by omega))
    rcases ih with ⟨rfl, _⟩ | ⟨_, ih⟩
    · omega
    · right
      refine ⟨h0, ?_⟩
      have := hk k (by omega)
      rw [show L + (s + (k + 1)) - 1 = (L + (s + k) - 1) + 1 by omega, count_take_succ, ih, if_pos]
      · omega
      · rw [show L + (s + k) - 1 = L + s + k - 1 by omega]; exact this

theorem isRun_of_const {scaldims : List Nat} (W : WFScal scaldims) {L s : Nat}
    (h : levelIsConstant L s (isScal scaldims) = true) :
    0 < runLength scaldims (L + s - 1) ∧
      IsRun L (isScal scaldims) s (runLength scaldims (L + s - 1)) := by
  obtain ⟨h0, h⟩ := (isConst_iff _ _ _).1 h
  unfold isScal at h
  rw [List.getElem?_map, Option.map_eq_some_iff] at h
  obtain ⟨n, hn, hn0⟩ := h
  have hn0 : n ≠ 0 := by simpa using hn0
  have e : runLength scaldims (L + s - 1) = n := by simp [runLength, hn]
  obtain ⟨h1, h2⟩ := W _ _ hn hn0
  rw [e]
  refine ⟨by omega, h0, fun i hi => ?_, ?_⟩
  · have := h1 i hi
    rwa [show L + s - 1 + i = L + s + i - 1 by omega] at this
  · rwa [show L + s - 1 + n = L + s + n - 1 by omega] at h2

/-- A level that is not scalar and within the scattering is within the dimension of every
statement. -/
theorem level_le_dim {flags : List Bool} {L s d : Nat} (h0 : 0 < L) (hp : Pos flags L s)
    (hc : levelIsConstant L s flags = false) (hs : L + s ≤ flags.length)
    (hd : flags.count false ≤ d) : L ≤ d := by
  have h1 := pos_next hp hc
  rcases h1 with ⟨h, _⟩ | ⟨_, h⟩
  · omega
  · rw [show L + 1 + s - 1 = L + s by omega] at h
    have h2 := count_bool (flags.take (L + s))
    have h3 : (flags.take (L + s)).count false ≤ flags.count false :=
      (List.take_sublist _ _).count_le _
    rw [List.length_take] at h2
    omega

theorem pos_scal_le {flags : List Bool} {L s : Nat} (hp : Pos flags L s) : s ≤ flags.length := by
  rcases hp with ⟨_, rfl⟩ | ⟨_, h⟩
  · omega
  · have := List.count_le_length (a := true) (l := flags.take (L + s - 1))
    rw [List.length_take] at this
    omega

theorem more_dim {flags : List Nat} {L s : Nat} {l : Loop D S} (hp : Pos (isScal flags) L s)
    (hc : levelIsConstant L s (isScal flags) = false)
    (hd : (isScal flags).count false ≤ o.dim l.dom) (h : more o l L s flags.length = true) :
    L ≤ o.dim l.dom := by
  rcases Nat.eq_zero_or_pos L with h0 | h0
  · omega
  · unfold more at h
    simp only [Bool.or_eq_true, decide_eq_true_eq] at h
    rcases h with h | h
    · exact level_le_dim h0 hp hc (by simpa [isScal] using h) hd
    · exact h

/-! ## `cloog_loop_follows` -/

theorem scalOf_eq {l : Loop D S} {b : Block} (h : l.block = some b) : scalOf l = scalF b := by
  funext i
  simp [scalOf, scalF, h]

theorem Before.mono {Rel : Nat → Nat → Inst → Inst → Prop} {L s : Nat} {i j i' j' : Loop D S}
    (h : Before o mem Rel L s i j) (hi : i'.block = i.block) (hid : o.dim i'.dom = o.dim i.dom)
    (hj : j'.block = j.block) (hjd : o.dim j'.dom = o.dim j.dom)
    (hi' : ∀ px, mem i'.dom px → mem i.dom px) (hj' : ∀ px, mem j'.dom px → mem j.dom px) :
    Before o mem Rel L s i' j' := by
  intro p x y hx hy hxy e f he hf
  refine h p x y (hi' _ hx) (hj' _ hy) hxy e f ?_ ?_
  · exact ⟨hi ▸ he.1, hid ▸ he.2⟩
  · exact ⟨hj ▸ hf.1, hjd ▸ hf.2⟩

/-- If the test says that `a` does not follow `b`, then the instances of `a` come before those of
`b`. -/
theorem followsFrom_sound (G : GenLaws o mem) {scaldims : List Nat} (W : WFScal scaldims)
    {ord : Block → Block → Prop} {Rel : Nat → Nat → Inst → Inst → Prop}
    (RL : RelLaws (isScal scaldims) ord Rel) {a b : Loop D S}
    (hba : a.block ≠ none) (hbb : b.block ≠ none)
    (hda : (isScal scaldims).count false ≤ o.dim a.dom)
    (hdb : (isScal scaldims).count false ≤ o.dim b.dom) {dflt : Bool}
    (hord : dflt = false → ∀ u v, a.block = some u → b.block = some v → ord u v) :
    ∀ (fuel L s : Nat), 0 < L → Pos (isScal scaldims) L s →
      scaldims.length + o.dim a.dom + o.dim b.dom + 3 ≤ fuel + L + s →
      followsFrom o a b scaldims dflt fuel L s = false → Before o mem Rel L s a b := by
  obtain ⟨u, hu⟩ := Option.ne_none_iff_exists'.1 hba
  obtain ⟨v, hv⟩ := Option.ne_none_iff_exists'.1 hbb
  have hlen : (isScal scaldims).length = scaldims.length := by simp [isScal]
  intro fuel
  have hterm : ∀ L s, scaldims.length < L + s → (o.dim a.dom < L ∨ o.dim b.dom < L) →
      dflt = false → Before o mem Rel L s a b := by
    intro L s h1 h2 hd p x y hx hy hxy e f he hf
    refine RL.term L s e f (by omega) ?_ (hord hd _ _ he.1 hf.1)
    rw [at_length he, at_length hf]
    exact h2
  induction fuel with
  | zero =>
    intro L s h0 hp hf h
    have := pos_scal_le hp
    rw [followsFrom] at h
    exact hterm L s (by omega) (by omega) h
  | succ fuel ih =>
    intro L s h0 hp hf h
    rw [followsFrom] at h
    split at h
    · rename_i hc
      obtain ⟨hk, hrun⟩ := isRun_of_const W hc
      rw [scalOf_eq hu, scalOf_eq hv] at h
      have hs := constantCmp_spec o.icmp G.icmp L (isScal scaldims) (scalF u) (scalF v) _ s hrun
      dsimp only at h
      split at h
      · exact absurd h (by simp)
      · rename_i hgt
        have hcase : ∀ p x y, mem a.dom (p, x) → mem b.dom (p, y) → ∀ e f, At o a x e → At o b y f →
            e.block = u ∧ f.block = v := by
          intro p x y _ _ e f he hf
          have h1 := he.1
          have h2 := hf.1
          rw [hu] at h1
          rw [hv] at h2
          exact ⟨(Option.some.inj h1).symm, (Option.some.inj h2).symm⟩
        split at h
        · rename_i hlt
          intro p x y hx hy hxy e f he hf'
          obtain ⟨rfl, rfl⟩ := hcase p x y hx hy e f he hf'
          refine RL.scalLt L s _ e f hrun ?_
          rcases lexLt_trichotomy 0 (runLength scaldims (L + s - 1)) (scalF e.block) (scalF f.block) s
            with h1 | h1 | h1
          · exact h1
          · have := hs.2.2 h1
            omega
          · exact absurd (hs.1.2 h1) hgt
        · rename_i hlt
          have heq := hs.2.1 (by omega)
          have hb := ih L (s + runLength scaldims (L + s - 1)) h0
            (pos_scal h0 hp hrun.2.1) (by omega) h
          intro p x y hx hy hxy e f he hf'
          have hr := hb p x y hx hy hxy e f he hf'
          obtain ⟨rfl, rfl⟩ := hcase p x y hx hy e f he hf'
          exact RL.scalEq L s _ e f hrun heq hr
    · rename_i hc
      have hc : levelIsConstant L s (isScal scaldims) = false := by simpa using hc
      by_cases hdim : L ≤ o.dim a.dom ∧ L ≤ o.dim b.dom
      · rw [if_pos hdim] at h
        dsimp only at h
        split at h
        · exact absurd h (by simp)
        · rename_i hgt
          split at h
          · rename_i hlt
            intro p x y hx hy hxy e f he hf'
            refine RL.value L s e f h0 hc ?_ ?_ ?_
            · rw [at_length he]; exact hdim.1
            · rw [at_length hf']; exact hdim.2
            · rw [at_getD he (by omega), at_getD hf' (by omega)]
              exact G.follows_lt _ _ _ h0 hlt p x y hx hy hxy
          · have hb := ih (L + 1) s (by omega) (pos_next hp hc) (by omega) h
            intro p x y hx hy hxy e f he hf'
            have hle := G.follows_le _ _ _ h0 (by omega) p x y hx hy hxy
            have e1 := at_getD he (k := L - 1) (by omega)
            have e2 := at_getD hf' (k := L - 1) (by omega)
            rcases Int.lt_or_eq_of_le hle with hlt | heq
            · refine RL.value L s e f h0 hc ?_ ?_ ?_
              · rw [at_length he]; exact hdim.1
              · rw [at_length hf']; exact hdim.2
              · rw [e1, e2]; exact hlt
            · refine RL.next L s e f h0 hc ?_ ?_ ?_ ?_
              · rw [at_length he]; exact hdim.1
              · rw [at_length hf']; exact hdim.2
              · rw [e1, e2]; exact heq
              · exact hb p x y hx hy (agree_succ hxy h0 heq) e f he hf'
      · rw [if_neg hdim] at h
        refine hterm L s ?_ (by omega) h
        by_contra hn
        exact hdim ⟨level_le_dim h0 hp hc (by omega) hda, level_le_dim h0 hp hc (by omega) hdb⟩

theorem follows_sound (G : GenLaws o mem) {scaldims : List Nat} (W : WFScal scaldims)
    {ord : Block → Block → Prop} {Rel : Nat → Nat → Inst → Inst → Prop}
    (RL : RelLaws (isScal scaldims) ord Rel) {a b : Loop D S}
    (hba : a.block ≠ none) (hbb : b.block ≠ none)
    (hda : (isScal scaldims).count false ≤ o.dim a.dom)
    (hdb : (isScal scaldims).count false ≤ o.dim b.dom) {dflt : Bool}
    (hord : dflt = false → ∀ u v, a.block = some u → b.block = some v → ord u v)
    {L s : Nat} (h0 : 0 < L) (hp : Pos (isScal scaldims) L s)
    (h : follows o a b L s scaldims dflt = false) : Before o mem Rel L s a b :=
  followsFrom_sound G W RL hba hbb hda hdb hord _ L s h0 hp (by omega) h

/-! ## Components -/

theorem filterMap_getElem_sublist {α : Type} (l : List α) :
    ∀ (c : List Nat), c.Pairwise (· < ·) → (c.filterMap (fun i => l[i]?)).Sublist l := by
  have key : ∀ (c : List Nat) (k : Nat), c.Pairwise (· < ·) → (∀ i ∈ c, k ≤ i) →
      (c.filterMap (fun i => l[i]?)).Sublist (l.drop k) := by
    intro c
    induction c with
    | nil => intro k _ _; simp
    | cons i c ih =>
      intro k hc hk
      rw [List.pairwise_cons] at hc
      have := ih (i + 1) hc.2 (fun j hj => hc.1 j hj)
      rw [List.filterMap_cons]
      have hki : (l.drop i).Sublist (l.drop k) := by
        have := hk i (by simp)
        rw [show i = k + (i - k) by omega, ← List.drop_drop]
        exact List.drop_sublist _ _
      cases he : l[i]? with
      | none =>
        exact this.trans ((List.drop_sublist_drop_left l (by omega)).trans hki)
      | some a =>
        refine List.Sublist.trans ?_ hki
        obtain ⟨hl, rfl⟩ := List.getElem?_eq_some_iff.1 he
        rw [List.drop_eq_getElem_cons hl]
        exact this.cons_cons _
  intro c hc
  simpa using key c 0 hc (by simp)

theorem reach_single {f : Nat → Nat → Bool} {n x y : Nat} (hx : x < n) (hy : y < n)
    (hxy : x ≠ y) (h : f x y = true) : Verif.Props.Tarjan.Reach f n x y := by
  exact Relation.ReflTransGen.single ⟨hx, hy, hxy, h⟩

/-- The components of a list of loops. -/
theorem componentsOf_spec {α : Type} {fol : Loop D S → Loop D S → Bool → Bool}
    {ls : List (Loop D S)} {cs : List (List (Loop D S))} (h : componentsOf fol ls = some cs) :
    (∀ c ∈ cs, c.Sublist ls) ∧ (∀ l ∈ ls, ∃ c ∈ cs, l ∈ c) ∧
      cs.Pairwise (fun c d => ∀ a ∈ c, ∀ b ∈ d, ∃ i j : Nat, ls[i]? = some a ∧ ls[j]? = some b ∧ i ≠ j ∧
        fol a b (decide (j < i)) = false) := by
  unfold componentsOf at h
  obtain ⟨is, h1, h2, h3, h4, h5⟩ := Verif.Props.Tarjan.C21_components (edge fol ls) ls.length (fun _ => (0, false))
  rw [h1] at h
  dsimp only at h
  obtain rfl := Option.some.inj h
  have hm : (is.map (fun c => c.map (fun x : Nat => (x : Int)))).map
      (fun c => c.filterMap (fun i => ls[i.toNat]?)) =
      is.map (fun c => c.filterMap (fun i => ls[i]?)) := by
    rw [List.map_map]
    apply List.map_congr_left
    intro c _
    simp only [Function.comp]
    rw [List.filterMap_map]
    rfl
  rw [hm]
  refine ⟨?_, ?_, ?_⟩
  · intro c hc
    obtain ⟨i, hi, rfl⟩ := List.mem_map.1 hc
    exact filterMap_getElem_sublist ls i (h3 i hi).2
  · intro l hl
    obtain ⟨n, hn, rfl⟩ := List.getElem_of_mem hl
    have : n ∈ is.flatten := h2.symm.subset (List.mem_range.2 hn)
    obtain ⟨i, hi, hni⟩ := List.mem_flatten.1 this
    exact ⟨_, List.mem_map_of_mem hi, List.mem_filterMap.2 ⟨n, hni, by simp [hn]⟩⟩
  · rw [List.pairwise_map]
    have hnd : is.flatten.Nodup := h2.nodup_iff.2 List.nodup_range
    have hdj := (List.nodup_flatten.1 hnd).2
    refine List.Pairwise.imp ?_ (h5.and hdj)
    intro c d hcd a ha b hb
    obtain ⟨i, hi, hia⟩ := List.mem_filterMap.1 ha
    obtain ⟨j, hj, hjb⟩ := List.mem_filterMap.1 hb
    have hi' := (List.getElem?_eq_some_iff.1 hia).1
    have hj' := (List.getElem?_eq_some_iff.1 hjb).1
    have hij : i ≠ j := by
      rintro rfl
      exact hcd.2 hi hj
    refine ⟨i, j, hia, hjb, hij, ?_⟩
    · have hn := hcd.1 i hi j hj
      by_contra hf
      apply hn
      apply reach_single hi' hj' hij
      rw [edge, hia, hjb]
      simpa using hf

/-- Components of the statement loops: ordered by `Before`. -/
theorem components_before (G : GenLaws o mem) {scaldims : List Nat} (W : WFScal scaldims)
    {ord : Block → Block → Prop} {Rel : Nat → Nat → Inst → Inst → Prop}
    (RL : RelLaws (isScal scaldims) ord Rel) {B : List (Loop D S)}
    (hK : KOK (isScal scaldims) ord (keys o B))
    {L s : Nat} (h0 : 0 < L) (hp : Pos (isScal scaldims) L s)
    {fol : Loop D S → Loop D S → Bool → Bool}
    (hfol : ∀ a b d, fol a b d = false → follows o a b L s scaldims d = false)
    {cs : List (List (Loop D S))} (h : componentsOf fol B = some cs) :
    (∀ c ∈ cs, c.Sublist B) ∧ (∀ l ∈ B, ∃ c ∈ cs, l ∈ c) ∧
      cs.Pairwise (fun c d => ∀ a ∈ c, ∀ b ∈ d, Before o mem Rel L s a b) := by
  obtain ⟨h1, h2, h3⟩ := componentsOf_spec (α := Unit) h
  refine ⟨h1, h2, List.Pairwise.imp ?_ h3⟩
  intro c d hcd a ha b hb
  obtain ⟨i, j, hi, hj, hij, hf⟩ := hcd a ha b hb
  have ma := List.mem_of_getElem? hi
  have mb := List.mem_of_getElem? hj
  have ka : (a.block, o.dim a.dom) ∈ keys o B := List.mem_map_of_mem ma
  have kb : (b.block, o.dim b.dom) ∈ keys o B := List.mem_map_of_mem mb
  refine follows_sound G W RL (hK.block _ ka) (hK.block _ kb) (hK.dims _ ka) (hK.dims _ kb) ?_ h0 hp
    (hfol _ _ _ hf)
  intro hd u v hu hv
  have hlt : i < j := by
    have : ¬ j < i := by simpa using hd
    omega
  have hp := hK.ord
  unfold keys at hp
  rw [List.pairwise_map, List.pairwise_iff_getElem] at hp
  obtain ⟨hi', rfl⟩ := List.getElem?_eq_some_iff.1 hi
  obtain ⟨hj', rfl⟩ := List.getElem?_eq_some_iff.1 hj
  exact hp i j hi' hj' hlt u v hu hv

/-! ## Refining a stage -/

/-- `g` splits the loop `r` of a stage. -/
structure Refines (o : DomOps D S C) (mem : D → Par × Pt → Prop) (ok : Nat → S → Par × Pt → Prop)
    (Rel : Nat → Nat → Inst → Inst → Prop) (L s : Nat) (r : Loop D S) (g : List (Loop D S)) :
    Prop where
  shape : ∀ t ∈ g, Nd o L t
  keys : ∀ t ∈ g, (keys o t.inner).Sublist (keys o r.inner)
  sound : ∀ t ∈ g, ∀ i ∈ t.inner, ∃ j ∈ r.inner, i.block = j.block ∧ o.dim i.dom = o.dim j.dom ∧
    i.inner = j.inner ∧
    ∀ px, mem i.dom px → mem j.dom px ∧ mem t.dom px ∧ Adm ok L t.stride px
  cover : ∀ j ∈ r.inner, ∀ px, mem j.dom px → ∃ t ∈ g, ∃ i ∈ t.inner, i.block = j.block ∧
    o.dim i.dom = o.dim j.dom ∧ mem i.dom px
  order : g.Pairwise (fun r t => ∀ i ∈ r.inner, ∀ j ∈ t.inner, Before o mem Rel L s i j)

theorem Stage.refine {Rel : Nat → Nat → Inst → Inst → Prop} {L s : Nat} {B R : List (Loop D S)}
    (h : Stage o mem ok Rel L s B R) {gs : List (List (Loop D S))}
    (hg : List.Forall₂ (Refines o mem ok Rel L s) R gs) : Stage o mem ok Rel L s B gs.flatten := by
  have fwd : ∀ r ∈ R, ∃ g ∈ gs, Refines o mem ok Rel L s r g := by
    intro r hr
    clear h
    induction hg with
    | nil => simp at hr
    | cons h1 _ ih =>
      rcases List.mem_cons.1 hr with rfl | hr
      · exact ⟨_, by simp, h1⟩
      · obtain ⟨g, hg, h⟩ := ih hr
        exact ⟨g, by simp [hg], h⟩
  have bwd : ∀ g ∈ gs, ∃ r ∈ R, Refines o mem ok Rel L s r g := by
    intro g hg'
    clear h fwd
    induction hg with
    | nil => simp at hg'
    | cons h1 _ ih =>
      rcases List.mem_cons.1 hg' with rfl | hr
      · exact ⟨_, by simp, h1⟩
      · obtain ⟨g, hg, h⟩ := ih hr
        exact ⟨g, by simp [hg], h⟩
  have bwd' : ∀ t ∈ gs.flatten, ∃ r ∈ R, ∃ g, t ∈ g ∧ Refines o mem ok Rel L s r g := by
    intro t ht
    obtain ⟨g, hg, ht⟩ := List.mem_flatten.1 ht
    obtain ⟨r, hr, h⟩ := bwd g hg
    exact ⟨r, hr, g, ht, h⟩
  refine ⟨?_, ?_, ?_, ?_, ?_, ?_, ?_⟩
  · intro t ht
    obtain ⟨r, hr, g, htg, hrg⟩ := bwd' t ht
    exact hrg.shape t htg
  · intro t ht
    obtain ⟨r, hr, g, htg, hrg⟩ := bwd' t ht
    exact (hrg.keys t htg).trans (h.keys r hr)
  · intro t ht i hi
    obtain ⟨r, hr, g, htg, hrg⟩ := bwd' t ht
    obtain ⟨j, hj, h1, h2, h3, h4⟩ := hrg.sound t htg i hi
    rw [h3, h2]
    exact h.base r hr j hj
  · intro t ht i hi px hpx
    obtain ⟨r, hr, g, htg, hrg⟩ := bwd' t ht
    obtain ⟨j, hj, h1, h2, h3, h4⟩ := hrg.sound t htg i hi
    exact (h4 px hpx).2
  · intro b hb px hpx
    obtain ⟨r, hr, j, hj, h1, h2, h3⟩ := h.cover b hb px hpx
    obtain ⟨g, hg, hrg⟩ := fwd r hr
    obtain ⟨t, ht, i, hi, k1, k2, k3⟩ := hrg.cover j hj px h3
    exact ⟨t, List.mem_flatten.2 ⟨g, hg, ht⟩, i, hi, by rw [k1, h1], by rw [k2, h2], k3⟩
  · intro t ht i hi
    obtain ⟨r, hr, g, htg, hrg⟩ := bwd' t ht
    obtain ⟨j, hj, h1, h2, h3, h4⟩ := hrg.sound t htg i hi
    obtain ⟨b, hb, k1, k2, k3⟩ := h.sound r hr j hj
    exact ⟨b, hb, by rw [k1, h1], by rw [k2, h2], fun px hpx => k3 px (h4 px hpx).1⟩
  · rw [List.pairwise_flatten]
    constructor
    · intro g hg'
      obtain ⟨r, hr, hrg⟩ := bwd g hg'
      exact hrg.order
    · have hO := h.order
      clear h fwd bwd bwd'
      induction hg with
      | nil => simp
      | cons h1 h2 ih =>
        rename_i r g R gs
        rw [List.pairwise_cons] at hO ⊢
        refine ⟨fun g' hg' t ht u hu i hi j hj => ?_, ih hO.2⟩
        have : ∃ r' ∈ R, Refines o mem ok Rel L s r' g' := by
          clear ih hO
          induction h2 with
          | nil => simp at hg'
          | cons k1 _ ih =>
            rcases List.mem_cons.1 hg' with rfl | hr
            · exact ⟨_, by simp, k1⟩
            · obtain ⟨g, hg, h⟩ := ih hr
              exact ⟨g, by simp [hg], h⟩
        obtain ⟨r', hr', hrg'⟩ := this
        obtain ⟨i0, hi0, a1, a2, _, a4⟩ := h1.sound t ht i hi
        obtain ⟨j0, hj0, b1, b2, _, b4⟩ := hrg'.sound u hu j hj
        exact (hO.1 r' hr' i0 hi0 j0 hj0).mono a1 a2 b1 b2 (fun px h => (a4 px h).1)
          (fun px h => (b4 px h).1)

theorem Refines.self {Rel : Nat → Nat → Inst → Inst → Prop} {L s : Nat} {r t : Loop D S}
    (hs : Nd o L t) (hi : t.inner = r.inner)
    (h : ∀ i ∈ r.inner, ∀ px, mem i.dom px → mem t.dom px ∧ Adm ok L t.stride px) : Refines o mem ok Rel L s r [t] := by
  refine ⟨by simpa using hs, ?_, ?_, ?_, by simp⟩
  · intro t' ht
    rw [List.mem_singleton.1 ht, hi]
  · intro t' ht i hi'
    rw [List.mem_singleton.1 ht, hi] at hi'
    rw [List.mem_singleton.1 ht]
    exact ⟨i, hi', rfl, rfl, rfl, fun px hpx => ⟨hpx, h i hi' px hpx⟩⟩
  · intro j hj px hpx
    exact ⟨t, by simp, j, by rw [hi]; exact hj, rfl, rfl, hpx⟩

/-- A splitting only depends on the inner loops. -/
theorem Refines.of_inner {Rel : Nat → Nat → Inst → Inst → Prop} {L s : Nat} {r r' : Loop D S}
    {g : List (Loop D S)} (h : Refines o mem ok Rel L s r' g) (e : r'.inner = r.inner) :
    Refines o mem ok Rel L s r g :=
  ⟨h.shape, by rw [← e]; exact h.keys, by rw [← e]; exact h.sound, by rw [← e]; exact h.cover,
    h.order⟩

theorem forall₂_of_flatMapM {α β : Type} {f : α → Option (List β)} {l : List α} {r : List β}
    {P : α → List β → Prop} (h : flatMapM f l = some r)
    (hP : ∀ a ∈ l, ∀ g, f a = some g → P a g) : ∃ gs, r = gs.flatten ∧ List.Forall₂ P l gs := by
  obtain ⟨gs, rfl, h2⟩ := flatMapM_spec h
  refine ⟨gs, rfl, ?_⟩
  clear h
  induction h2 with
  | nil => exact .nil
  | cons h1 _ ih =>
    exact .cons (hP _ (by simp) _ h1) (ih (fun a ha g hg => hP a (by simp [ha]) g hg))

theorem forall₂_map {α β : Type} {f : α → β} {l : List α} {P : α → List β → Prop}
    (hP : ∀ a ∈ l, P a [f a]) : ∃ gs, l.map f = gs.flatten ∧ List.Forall₂ P l gs := by
  induction l with
  | nil => exact ⟨[], rfl, .nil⟩
  | cons a l ih =>
    obtain ⟨gs, h1, h2⟩ := ih (fun a ha => hP a (by simp [ha]))
    exact ⟨[f a] :: gs, by simp [h1], .cons (hP a (by simp)) h2⟩

/-! ## `cloog_loop_specialize` -/

theorem decompose_stage (G : GenLaws o mem) {scaldims : List Nat} (W : WFScal scaldims)
    {ord : Block → Block → Prop} {Rel : Nat → Nat → Inst → Inst → Prop}
    (RL : RelLaws (isScal scaldims) ord Rel) {L s : Nat} (h0 : 0 < L)
    (hp : Pos (isScal scaldims) L s) {B R R' : List (Loop D S)}
    (hK : KOK (isScal scaldims) ord (keys o B)) (hS : Stage o mem ok Rel L s B R)
    (h : decomposeInner o L s scaldims R = some R') : Stage o mem ok Rel L s B R' := by
  have key : ∃ gs, R' = gs.flatten ∧ List.Forall₂ (Refines o mem ok Rel L s) R gs := by
    refine forall₂_of_flatMapM h ?_
    intro r hr g hg
    have hsh := hS.shape r hr
    unfold decomposeOne at hg
    split at hg
    · obtain rfl := Option.some.inj hg
      exact Refines.self hsh rfl (fun i hi px => hS.into r hr i hi px)
    · split at hg
      · exact absurd hg (by simp)
      · rename_i cs hcs
        obtain rfl := Option.some.inj hg
        obtain ⟨c1, c2, c3⟩ := components_before G W RL (hK.sublist (hS.keys r hr)) h0 hp
          (fun a b d h => h) hcs
        refine ⟨?_, ?_, ?_, ?_, ?_⟩
        · intro t ht
          obtain ⟨c, hc, rfl⟩ := List.mem_map.1 ht
          exact hsh
        · intro t ht
          obtain ⟨c, hc, rfl⟩ := List.mem_map.1 ht
          exact keys_sublist (c1 c hc)
        · intro t ht i hi
          obtain ⟨c, hc, rfl⟩ := List.mem_map.1 ht
          have hi' := (c1 c hc).subset hi
          exact ⟨i, hi', rfl, rfl, rfl, fun px hpx => ⟨hpx, hS.into r hr i hi' px hpx⟩⟩
        · intro j hj px hpx
          obtain ⟨c, hc, hjc⟩ := c2 j hj
          exact ⟨_, List.mem_map_of_mem hc, j, hjc, rfl, rfl, hpx⟩
        · rw [List.pairwise_map]
          exact c3
  obtain ⟨gs, rfl, hg⟩ := key
  exact hS.refine hg

theorem specialize_stage (G : GenLaws o mem) {scaldims : List Nat} (W : WFScal scaldims)
    {ord : Block → Block → Prop} {Rel : Nat → Nat → Inst → Inst → Prop}
    (RL : RelLaws (isScal scaldims) ord Rel) {L s : Nat} (h0 : 0 < L)
    (hp : Pos (isScal scaldims) L s) {B R R' : List (Loop D S)}
    (hK : KOK (isScal scaldims) ord (keys o B)) (hS : Stage o mem ok Rel L s B R)
    (h : specialize o L s scaldims R = some R') : Stage o mem ok Rel L s B R' := by
  unfold specialize at h
  split at h
  · exact absurd h (by simp)
  · rename_i ds hds
    obtain rfl := Option.some.inj h
    have hD := decompose_stage G W RL h0 hp hK hS hds
    have hM : Stage o mem ok Rel L s B (ds.map (specializeOne o)) := by
      obtain ⟨gs, e, hg⟩ : ∃ gs, ds.map (specializeOne o) = gs.flatten ∧
          List.Forall₂ (Refines o mem ok Rel L s) ds gs := by
        refine forall₂_map ?_
        intro r hr
        have hsh := hD.shape r hr
        have hself : Refines o mem ok Rel L s r [r] :=
          Refines.self hsh rfl (fun i hi px => hD.into r hr i hi px)
        unfold specializeOne
        split
        · rename_i i hi
          split
          · have hi' : i ∈ r.inner := by rw [hi]; simp
            have hd := (hD.base r hr i hi').2
            refine Refines.self ⟨?_, hsh.2⟩ rfl ?_
            · rw [Loop.dom_setDom, G.dim_project _ _ (by rw [hsh.1]; exact hd), hsh.1]
            · intro j hj px hpx
              rw [hi, List.mem_singleton] at hj
              subst hj
              exact ⟨G.project _ _ px (by rw [hsh.1]; exact hd) hpx, (hD.into r hr _ hi' px hpx).2⟩
          · exact hself
        · exact hself
      rw [e]
      exact hD.refine hg
    unfold removeEmpty
    generalize ds.map (specializeOne o) = ms at hM
    refine ⟨?_, ?_, ?_, ?_, ?_, ?_, ?_⟩
    · exact fun r hr => hM.shape r (List.mem_filter.1 hr).1
    · exact fun r hr => hM.keys r (List.mem_filter.1 hr).1
    · exact fun r hr => hM.base r (List.mem_filter.1 hr).1
    · exact fun r hr => hM.into r (List.mem_filter.1 hr).1
    · intro b hb px hpx
      obtain ⟨r, hr, i, hi, h1, h2, h3⟩ := hM.cover b hb px hpx
      refine ⟨r, List.mem_filter.2 ⟨hr, ?_⟩, i, hi, h1, h2, h3⟩
      by_contra hn
      have he : o.isEmpty r.dom = true := by simpa using hn
      exact G.isEmpty _ he px (hM.into r hr i hi px h3).1
    · exact fun r hr => hM.sound r (List.mem_filter.1 hr).1
    · exact hM.order.sublist List.filter_sublist

/-- Step 3b of `cloog_loop_generate_general`. -/
theorem step3b_stage (G : GenLaws o mem) {c : Ctx} (W : WFScal c.scaldims)
    {ord : Block → Block → Prop} {Rel : Nat → Nat → Inst → Inst → Prop}
    (RL : RelLaws (isScal c.scaldims) ord Rel) {L s : Nat}
    (hp : Pos (isScal c.scaldims) L s) (hc : levelIsConstant L s (isScal c.scaldims) = false)
    {B Q R : List (Loop D S)} {sep : Bool} (hsep : sep = true → 0 < L)
    (hK : KOK (isScal c.scaldims) ord (keys o B))
    (hB : ∀ b ∈ B, b.inner = [] ∧ L ≤ o.dim b.dom) (hQ : Pieces o mem L B Q)
    (h : step3b o c L s sep Q = some R) : Stage o mem ok Rel L s B R := by
  unfold step3b at h
  split at h
  · exact absurd h (by simp)
  · rename_i r hr
    obtain ⟨hP, hO⟩ := sort_spec G (fun q hq => (hQ.shape q hq).1) hQ.disj hr
    have hS := restrictInner_stage (ok := ok) G RL hc hB hQ hP hO
    split at h
    · rename_i he
      exact specialize_stage G W RL (hsep he) hp hK hS h
    · obtain rfl := Option.some.inj h
      exact hS

/-! ## Unrolling -/

theorem unroll_refines (G : GenLaws o mem) {flags : List Bool} {ord : Block → Block → Prop}
    {Rel : Nat → Nat → Inst → Inst → Prop} (RL : RelLaws flags ord Rel) {L s : Nat} (h0 : 0 < L)
    (hc : levelIsConstant L s flags = false) {r : Loop D S} (hsh : Nd o L r)
    (hcv : o.isConvex r.dom = true) (hdim : ∀ i ∈ r.inner, L ≤ o.dim i.dom)
    (hinto : ∀ i ∈ r.inner, ∀ px, mem i.dom px → mem r.dom px ∧ Adm ok L r.stride px) :
    Refines o mem ok Rel L s r (unrollOne o L r) := by
  unfold unrollOne
  split
  · exact Refines.self hsh rfl hinto
  · rename_i n lb hun
    obtain ⟨lo, l1, l2, l3⟩ := G.unroll _ _ _ _ h0 hcv hsh.1 hun
    have hd : ∀ k, o.dim (o.fixedOffset r.dom L lb k) = L := fun k => by
      rw [G.dim_fixedOffset, hsh.1]
    have hR : ∀ k, Restricted o mem r.inner (o.fixedOffset r.dom L lb k)
        (restrictAll o r.inner (o.fixedOffset r.dom L lb k)) := by
      intro k
      exact restrictAll_spec G _ _ (fun b hb => by rw [hd]; exact hdim b hb)
    dsimp only
    have hmem : ∀ t, t ∈ (List.range n.toNat).filterMap (fun i : Nat =>
          if (restrictAll o r.inner (o.fixedOffset r.dom L lb i)).isEmpty then none
          else some (Loop.mk (o.fixedOffset r.dom L lb i) true none none
            (restrictAll o r.inner (o.fixedOffset r.dom L lb i)))) →
        ∃ k : Nat, t = Loop.mk (o.fixedOffset r.dom L lb k) true none none
          (restrictAll o r.inner (o.fixedOffset r.dom L lb k)) := by
      intro t ht
      obtain ⟨k, _, hk⟩ := List.mem_filterMap.1 ht
      split at hk
      · exact absurd hk (by simp)
      · exact ⟨k, (Option.some.inj hk).symm⟩
    refine ⟨?_, ?_, ?_, ?_, ?_⟩
    · intro t ht
      obtain ⟨k, rfl⟩ := hmem t ht
      exact ⟨hd k, rfl⟩
    · intro t ht
      obtain ⟨k, rfl⟩ := hmem t ht
      exact (hR k).keys
    · intro t ht i hi
      obtain ⟨k, rfl⟩ := hmem t ht
      obtain ⟨b, hb, h1, h2, h3, h4⟩ := (hR k).sound i hi
      exact ⟨b, hb, h1.symm, h2.symm, h3.symm, fun px hpx =>
        ⟨((h4 px).1 hpx).2, ((h4 px).1 hpx).1, adm_none⟩⟩
    · intro j hj px hpx
      obtain ⟨p, x⟩ := px
      have hx := (hinto j hj _ hpx).1
      have hb := l2 p x hx
      have hk : mem (o.fixedOffset r.dom L lb ((x (L - 1) - lo p x).toNat : Nat)) (p, x) := by
        rw [l3]
        exact ⟨hx, by omega⟩
      obtain ⟨i, hi, k1, k2, k3⟩ := (hR ((x (L - 1) - lo p x).toNat : Nat)).cover j hj _ hpx hk
      refine ⟨Loop.mk (o.fixedOffset r.dom L lb ((x (L - 1) - lo p x).toNat : Nat)) true none none
        (restrictAll o r.inner (o.fixedOffset r.dom L lb ((x (L - 1) - lo p x).toNat : Nat))),
        List.mem_filterMap.2 ⟨(x (L - 1) - lo p x).toNat, List.mem_range.2 (by omega), ?_⟩,
        i, hi, k1, k2, k3⟩
      rw [if_neg]
      intro he
      rw [List.isEmpty_iff] at he
      rw [he] at hi
      simp at hi
    · rw [List.pairwise_filterMap]
      refine List.Pairwise.imp ?_ (List.pairwise_lt_range)
      intro k l hkl a ha b hb i hi j hj p x y hx hy hxy e f he hf
      split at ha
      · exact absurd ha (by simp)
      split at hb
      · exact absurd hb (by simp)
      obtain rfl := Option.some.inj ha
      obtain rfl := Option.some.inj hb
      obtain ⟨i0, hi0, _, a2, _, a4⟩ := (hR k).sound i hi
      obtain ⟨j0, hj0, _, b2, _, b4⟩ := (hR l).sound j hj
      have e1 := ((l3 _ _ _).1 ((a4 _).1 hx).1).2
      have e2 := ((l3 _ _ _).1 ((b4 _).1 hy).1).2
      have d1 := hdim i0 hi0
      have d2 := hdim j0 hj0
      have := l1 p x y hxy
      refine RL.value L s e f h0 hc ?_ ?_ ?_
      · rw [at_length he]; omega
      · rw [at_length hf]; omega
      · rw [at_getD he (by omega), at_getD hf (by omega)]; omega

end Verif.Gen
