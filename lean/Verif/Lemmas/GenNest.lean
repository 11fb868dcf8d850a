import Verif.Lemmas.GenRec

/-! # Loops that are only nested (`-l`) -/

namespace Verif.Gen

open Verif.Loop Verif.Props.Separate Verif.ScalarSort Verif.Props.ScalarSort

variable {D S C Par : Type} {o : DomOps D S C} {mem : D → Par × Pt → Prop} {ok : Nat → S → Par × Pt → Prop}

/-- The order does not constrain different instances behind the scattering. -/
def Free (flags : List Bool) (Rel : Nat → Nat → Inst → Inst → Prop) : Prop :=
  ∀ L s e f, flags.length < L + s → e ≠ f → Rel L s e f

theorem splitRest_dim (G : GenLaws o mem) {L : Nat} {rec_ : Loop D S → Option (List (Loop D S))}
    (hrec : ∀ l g, o.dim l.dom = L → rec_ l = some g → ∀ m ∈ g, o.dim m.dom = L) (b : Option Block)
    (inner : List (Loop D S)) :
    ∀ (fuel : Nat) (rest seen : D) (g : List (Loop D S)), o.dim rest = L → o.dim seen = L →
      splitRest o rec_ b inner fuel rest seen = some g → ∀ m ∈ g, o.dim m.dom = L := by
  intro fuel
  induction fuel with
  | zero => intro rest seen g _ _ h; simp [splitRest] at h
  | succ fuel ih =>
    intro rest seen g hr hs h m hm
    have hc := G.dim_cut rest
    have hdd : o.dim (o.diff (o.cutFirst rest).1 seen) = L := by
      rw [G.dim_diff _ _ (by rw [hc.1, hr, hs]), hs]
    rw [splitRest] at h
    split at h
    · obtain rfl := Option.some.inj h
      simp at hm
    · split at h
      · exact ih _ _ g (by rw [hc.2, hr]) hs h m hm
      · split at h
        · exact absurd h (by simp)
        · rename_i pieces hp
          have hpieces : ∀ q ∈ pieces, o.dim q.dom = L := by
            intro q hq
            split at hp
            · obtain rfl := Option.some.inj hp
              rw [List.mem_singleton] at hq
              subst hq
              exact hdd
            · exact hrec (.mk _ false none b inner) pieces hdd hp q hq
          split at h
          · obtain rfl := Option.some.inj h
            exact hpieces m hm
          · split at h
            · exact absurd h (by simp)
            · rename_i more hmore
              obtain rfl := Option.some.inj h
              rcases List.mem_append.1 hm with hm | hm
              · exact hpieces m hm
              · exact ih _ _ more (by rw [hc.2, hr]) (by rw [G.dim_union _ _ (by rw [hs, hdd]), hdd])
                  hmore m hm

theorem addDisjoint_dim (G : GenLaws o mem) {L : Nat} : ∀ (fuel : Nat) (l : Loop D S)
    (g : List (Loop D S)), o.dim l.dom = L → addDisjoint o fuel l = some g →
    ∀ m ∈ g, o.dim m.dom = L := by
  intro fuel
  induction fuel with
  | zero => intro l g _ h; simp [addDisjoint] at h
  | succ fuel ih =>
    intro l g hl h m hm
    rw [addDisjoint] at h
    split at h
    · obtain rfl := Option.some.inj h
      rw [List.mem_singleton] at hm
      rw [hm]
      exact hl
    · split at h
      · exact absurd h (by simp)
      · rename_i more hmore
        obtain rfl := Option.some.inj h
        have hc := G.dim_cut (o.simplifyUnion l.dom)
        have hs := G.dim_simplifyUnion l.dom
        rcases List.mem_cons.1 hm with rfl | hm
        · rw [Loop.dom_mk, hc.1, hs, hl]
        · exact splitRest_dim G ih l.block l.inner fuel _ _ more (by rw [hc.2, hs, hl])
            (by rw [hc.1, hs, hl]) hmore m hm

theorem nestProjections_succ (d : D) (t : Loop D S) : ∀ (n level : Nat),
    nestProjections o d level (n + 1) t =
      .mk (o.project d level) false none none [nestProjections o d (level + 1) n t]
  | 0, level => rfl
  | n + 1, level => by
    rw [nestProjections, nestProjections_succ d _ n level, nestProjections,
      show level + (n + 1) = level + 1 + n by omega]

/-- The nested loops of one statement execute its instances, none of them twice. -/
theorem nestProjections_correct (G : GenLaws o mem) {d : D} {b : Option Block} :
    ∀ (n level : Nat), 0 < level → level ≤ o.dim d + 1 → o.dim d + 1 - level = n →
      Top o level (nestProjections o d level n (.mk d false none b [])) ∨ b = none := by
  intro n level h0 hlow hn
  cases n with
  | zero =>
    rw [nestProjections]
    cases b with
    | none => exact Or.inr rfl
    | some b => exact Or.inl (Or.inr ⟨by simp, rfl, by rw [Loop.dom_mk]; omega⟩)
  | succ n =>
    rw [nestProjections_succ]
    exact Or.inl (Or.inl ⟨G.dim_project _ _ (by omega), rfl⟩)

theorem nestProjections_sem (G : GenLaws o mem) {d : D} {b : Option Block} {p : Par} :
    ∀ (n level : Nat), 0 < level → o.dim d + 1 - level = n → ∀ x : Pt,
      (∀ e, hasLoop (sem o mem ok p) level x (nestProjections o d level n (.mk d false none b [])) e ↔
        ∃ y, Agree level x y ∧ mem d (p, y) ∧ At o (.mk d false none b [] : Loop D S) y e) ∧
      ∀ e f, seqLoop (sem o mem ok p) level x
        (nestProjections o d level n (.mk d false none b [])) e f → e ≠ f := by
  intro n
  induction n with
  | zero =>
    intro level h0 hn x
    rw [nestProjections]
    have hC := Correct.leaf (ok := ok) (Rel := fun _ _ e f => e ≠ f) (s := 0) (L := level) G
      (l := .mk d false none b []) rfl (by rw [Loop.dom_mk]; omega)
    refine ⟨fun e => ?_, fun e f h => ?_⟩
    · have := hC.has p x e
      rw [hasLoops, hasLoops, or_false] at this
      rw [this]
      unfold InstOf
      constructor
      · rintro ⟨c, hc, y, hy, hm, hat⟩
        rw [List.mem_singleton] at hc
        subst hc
        exact ⟨y, hy, hm, hat⟩
      · rintro ⟨y, hy, hm, hat⟩
        exact ⟨.mk d false none b [], by simp, y, hy, hm, hat⟩
    · refine hC.seq p x e f ?_
      rw [seqLoops]
      exact Or.inl h
  | succ n ih =>
    intro level h0 hn x
    rw [nestProjections_succ]
    have hd : level ≤ o.dim d := by omega
    have hpd := G.dim_project d level hd
    have hsh : Sh o level (.mk (o.project d level) false none none
      [nestProjections o d (level + 1) n (.mk d false none b [])] : Loop D S) := ⟨hpd, rfl, rfl⟩
    have ih' := fun y => ih (level + 1) (by omega) (by omega) y
    refine ⟨fun e => ?_, fun e f h => ?_⟩
    · rw [hasLoop_sh hsh]
      simp only [Loop.dom_mk, Loop.inner_mk, hasLoops, or_false]
      constructor
      · rintro ⟨y, hy, hm, h⟩
        obtain ⟨z, hz, hmz, hat⟩ := ((ih' y).1 e).1 h
        refine ⟨z, ?_, hmz, hat⟩
        rcases hy with ⟨_, v, rfl⟩ | ⟨hy, _⟩
        · exact (agree_setAt x level v h0).trans (hz.mono (by omega))
        · omega
      · rintro ⟨z, hz, hm, hat⟩
        have ha : Agree (level + 1) (setAt x level (z (level - 1))) z := by
          refine agree_succ ((agree_setAt x level _ h0).symm.trans hz) h0 ?_
          rw [setAt_same]
        refine ⟨_, Or.inl ⟨h0, _, rfl⟩, ?_, ((ih' _).1 e).2 ⟨z, ha, hm, hat⟩⟩
        exact (agree_dim G (Nat.le_of_eq hpd) ha).2 (G.project d level _ hd hm)
    · rw [seqLoop_sh hsh] at h
      simp only [Loop.dom_mk, Loop.inner_mk, hasLoops, or_false, seqLoops, false_and, and_false] at h
      rcases h with ⟨y, _, _, h⟩ | ⟨_, v, w, hvw, _, _, he, hf⟩
      · exact (ih' y).2 e f h
      · rintro rfl
        obtain ⟨y, hy, _, hat⟩ := ((ih' _).1 e).1 he
        obtain ⟨z, hz, _, hat'⟩ := ((ih' _).1 e).1 hf
        have h1 := at_getD hat (k := level - 1) (by rw [Loop.dom_mk]; omega)
        have h2 := at_getD hat' (k := level - 1) (by rw [Loop.dom_mk]; omega)
        have h3 := hy (level - 1) (by omega)
        have h4 := hz (level - 1) (by omega)
        rw [setAt_same] at h3 h4
        omega

/-- The loops of the pieces of one statement. -/
theorem nest_group (G : GenLaws o mem) {Rel : Nat → Nat → Inst → Inst → Prop} {L s : Nat}
    (hfree : ∀ e f, e ≠ f → Rel (L + 1) s e f) {i : Loop D S} {d : D} {g : List (Loop D S)}
    (hb : i.block ≠ none) (hdi : o.dim d = L) (hdim : L ≤ o.dim i.dom)
    (hinto : ∀ px, mem i.dom px → mem d px)
    (hin : i.inner = []) (hsame : ∀ m ∈ g, m.inner = i.inner ∧ m.block = i.block)
    (hdims : ∀ m ∈ g, o.dim m.dom = o.dim i.dom)
    (hdisj : g.Pairwise (fun a b => ∀ x, ¬ (mem a.dom x ∧ mem b.dom x)))
    (hcov : ∀ x, mem i.dom x ↔ ∃ m ∈ g, mem m.dom x) :
    Correct o mem ok Rel (L + 1) s [i] (g.filterMap (nestOne o d (L + 1))) ∧
      ∀ t ∈ g.filterMap (nestOne o d (L + 1)), Top o (L + 1) t := by
  have one : ∀ m ∈ g, ∀ t, nestOne o d (L + 1) m = some t →
      Top o (L + 1) t ∧
      (∀ p x e, hasLoop (sem o mem ok p) (L + 1) x t e ↔
        ∃ y, Agree (L + 1) x y ∧ mem m.dom (p, y) ∧ At o i y e) ∧
      ∀ p x e f, seqLoop (sem o mem ok p) (L + 1) x t e f → e ≠ f := by
    intro m hm t ht
    unfold nestOne at ht
    split at ht
    · exact absurd ht (by simp)
    · rename_i q hq
      obtain rfl := Option.some.inj ht
      obtain ⟨q1, q2, _, q4, q5⟩ := restrict_spec G (by rw [hdims m hm, hdi]; exact hdim) hq
      have hqb : q.block = i.block := by rw [q1, (hsame m hm).2]
      have hqi : q.inner = [] := by rw [q2, (hsame m hm).1, hin]
      rw [hqi]
      refine ⟨?_, fun p x e => ?_, fun p x e f h => ?_⟩
      · rcases nestProjections_correct G (d := q.dom) (b := q.block) _ (L + 1) (by omega)
          (by rw [q4, hdims m hm]; omega) rfl with h | h
        · exact h
        · exact absurd (hqb.symm.trans h) hb
      · rw [(nestProjections_sem G _ (L + 1) (by omega) rfl x).1]
        constructor
        · rintro ⟨y, hy, hmy, hat⟩
          refine ⟨y, hy, ((q5 _).1 hmy).2, ?_, ?_⟩
          · rw [← hqb]; exact hat.1
          · rw [← hdims m hm, ← q4]; exact hat.2
        · rintro ⟨y, hy, hmy, hat⟩
          refine ⟨y, hy, (q5 _).2 ⟨hinto _ ((hcov _).2 ⟨m, hm, hmy⟩), hmy⟩, ?_, ?_⟩
          · show q.block = _
            rw [hqb]; exact hat.1
          · show _ = argsOf (o.dim q.dom) y
            rw [q4, hdims m hm]; exact hat.2
      · exact (nestProjections_sem G _ (L + 1) (by omega) rfl x).2 e f h
  have non : ∀ m ∈ g, nestOne o d (L + 1) m = none → ∀ px, ¬ mem m.dom px := by
    intro m hm hn px hpx
    unfold nestOne at hn
    split at hn
    · rename_i hr
      exact restrict_none G (by rw [hdims m hm, hdi]; exact hdim) hr px
        (hinto _ ((hcov _).2 ⟨m, hm, hpx⟩)) hpx
    · exact absurd hn (by simp)
  refine ⟨⟨fun p x e => ?_, fun p x e f hs => hfree e f ?_⟩, ?_⟩
  · rw [hasLoops_iff]
    unfold InstOf
    constructor
    · rintro ⟨t, ht, he⟩
      obtain ⟨m, hm, hmt⟩ := List.mem_filterMap.1 ht
      obtain ⟨y, hy, hmy, hat⟩ := ((one m hm t hmt).2.1 p x e).1 he
      exact ⟨i, by simp, y, hy, (hcov _).2 ⟨m, hm, hmy⟩, hat⟩
    · rintro ⟨c, hc, y, hy, hmy, hat⟩
      rw [List.mem_singleton] at hc
      subst hc
      obtain ⟨m, hm, hmy⟩ := (hcov _).1 hmy
      cases hn : nestOne o d (L + 1) m with
      | none => exact absurd hmy (non m hm hn _)
      | some t =>
        exact ⟨t, List.mem_filterMap.2 ⟨m, hm, hn⟩, ((one m hm t hn).2.1 p x e).2 ⟨y, hy, hmy, hat⟩⟩
  · refine seqLoops_rel hs ?_ ?_
    · intro t ht hst
      obtain ⟨m, hm, hmt⟩ := List.mem_filterMap.1 ht
      exact (one m hm t hmt).2.2 p x e f hst
    · rw [List.pairwise_filterMap]
      refine List.Pairwise.imp_of_mem ?_ hdisj
      intro a b ha hb' hab t ht u hu het hfu
      rintro rfl
      obtain ⟨y, hy, hmy, hat⟩ := ((one a ha t ht).2.1 p x e).1 het
      obtain ⟨z, hz, hmz, hat'⟩ := ((one b hb' u hu).2.1 p x e).1 hfu
      refine hab (p, y) ⟨hmy, ?_⟩
      refine (G.congr_iff (fun k hk => ?_)).2 hmz
      rw [hdims b hb'] at hk
      rw [← at_getD hat hk, ← at_getD hat' hk]
  · intro t ht
    obtain ⟨m, hm, hmt⟩ := List.mem_filterMap.1 ht
    exact (one m hm t hmt).1

theorem nest_correct (G : GenLaws o mem) {flags : List Bool} {ord : Block → Block → Prop}
    (hirr : ∀ u, ¬ ord u u) {Rel : Nat → Nat → Inst → Inst → Prop} {L s : Nat}
    (hfree : ∀ e f, e ≠ f → Rel (L + 1) s e f) {I T : List (Loop D S)} {d : D} {fuel : Nat}
    (hdi : o.dim d = L) (hK : KOK flags ord (keys o I)) (hdim : ∀ i ∈ I, L ≤ o.dim i.dom)
    (hinto : ∀ i ∈ I, ∀ px, mem i.dom px → mem d px) (hin : ∀ i ∈ I, i.inner = [])
    (h : nest o fuel I d (L + 1) = some T) :
    Correct o mem ok Rel (L + 1) s I T ∧ ∀ t ∈ T, Top o (L + 1) t := by
  unfold nest at h
  split at h
  · exact absurd h (by simp)
  rename_i ds hds
  obtain rfl := Option.some.inj h
  unfold disjoint at hds
  clear h
  induction I generalizing ds with
  | nil =>
    rw [flatMapM] at hds
    obtain rfl := Option.some.inj hds
    exact ⟨Correct.nil, by simp⟩
  | cons i I ih =>
    rw [flatMapM] at hds
    split at hds
    · exact absurd hds (by simp)
    · rename_i g hg
      split at hds
      · exact absurd hds (by simp)
      · rename_i cs hcs
        obtain rfl := Option.some.inj hds
        have hI := ih (hK.sublist (keys_sublist (List.sublist_cons_self i I)))
          (fun j hj => hdim j (by simp [hj])) (fun j hj => hinto j (by simp [hj]))
          (fun j hj => hin j (by simp [hj])) cs hcs
        have hsp := addDisjoint_spec G.toSetLaws fuel i g hg
        have hi := nest_group (ok := ok) G hfree
          (hK.block (i.block, o.dim i.dom) (List.mem_map_of_mem (by simp))) hdi (hdim i (by simp))
          (hinto i (by simp)) (hin i (by simp)) hsp.same
          (addDisjoint_dim G fuel i g rfl hg) hsp.disj hsp.cover
        rw [List.filterMap_append]
        refine ⟨hi.1.append (A := [i]) (B := I) hI.1 ?_, ?_⟩
        · intro a ha b hb p x y _ _ _ e f he hf
          refine hfree e f ?_
          rintro rfl
          have := hK.ord
          unfold keys at this
          rw [List.map_cons, List.pairwise_cons] at this
          rw [List.mem_singleton] at ha
          subst ha
          exact hirr _ (this.1 _ (List.mem_map_of_mem hb) _ _ he.1 hf.1)
        · intro t ht
          rcases List.mem_append.1 ht with ht | ht
          · exact hi.2 t ht
          · exact hI.2 t ht

/-- Step 4 of `cloog_loop_generate_general` for loops that are only nested. -/
theorem nestBelow_trees (G : GenLaws o mem) {scaldims : List Nat} {ord : Block → Block → Prop}
    (hirr : ∀ u, ¬ ord u u) {Rel : Nat → Nat → Inst → Inst → Prop}
    (RL : RelLaws (isScal scaldims) ord Rel) (hfree : Free (isScal scaldims) Rel) {L s : Nat}
    (hp : Pos (isScal scaldims) L s) (hc : levelIsConstant L s (isScal scaldims) = false)
    (hl : scaldims.length ≤ L + s) {fuel : Nat} {B R T : List (Loop D S)}
    (hK : KOK (isScal scaldims) ord (keys o B)) (hS : Stage o mem ok Rel L s B R)
    (h : flatMapM (nestBelow o fuel L) R = some T) : Trees o mem ok Rel L s B T := by
  have hlen : (isScal scaldims).length = scaldims.length := by simp [isScal]
  have h0s : L = 0 → s = 0 := by
    rintro rfl
    rcases hp with ⟨_, h⟩ | ⟨h, _⟩
    · exact h
    · omega
  have key : ∀ R T : List (Loop D S),
      (∀ r ∈ R, Nd o L r ∧ (keys o r.inner).Sublist (keys o B) ∧
        (∀ i ∈ r.inner, i.inner = [] ∧ L ≤ o.dim i.dom) ∧
        (∀ i ∈ r.inner, ∀ px, mem i.dom px → mem r.dom px ∧ Adm ok L r.stride px)) →
      R.Pairwise (fun r t => ∀ i ∈ r.inner, ∀ j ∈ t.inner, Before o mem Rel L s i j) →
      flatMapM (nestBelow o fuel L) R = some T →
      (∀ t ∈ T, Tree o mem ok Rel L s t) ∧
      (∀ p x e, hasLoops (sem o mem ok p) L x T e ↔ ∃ r ∈ R, InstOf o mem r.inner p L x e) ∧
      ∀ p x e f, seqLoops (sem o mem ok p) L x T e f → Rel L s e f := by
    intro R
    induction R with
    | nil =>
      intro T _ _ h
      rw [flatMapM] at h
      obtain rfl := Option.some.inj h
      simp [hasLoops, seqLoops]
    | cons r R ih =>
      intro T hR hO h
      rw [flatMapM] at h
      split at h
      · exact absurd h (by simp)
      · rename_i bs hbs
        split at h
        · exact absurd h (by simp)
        · rename_i cs hcs
          obtain rfl := Option.some.inj h
          rw [List.pairwise_cons] at hO
          obtain ⟨i1, i2, i3⟩ := ih cs (fun r hr => hR r (by simp [hr])) hO.2 hcs
          obtain ⟨hsh, hkr, hbase, hinto⟩ := hR r (by simp)
          unfold nestBelow at hbs
          split at hbs
          · exact absurd hbs (by simp)
          · rename_i into hin
            obtain rfl := Option.some.inj hbs
            obtain ⟨hC, hTop⟩ := nest_correct (ok := ok) (s := s) G hirr
              (fun e f hef => hfree (L + 1) s e f (by omega) hef) hsh.1 (hK.sublist hkr)
              (fun i hi => (hbase i hi).2) (fun i hi px h => (hinto i hi px h).1)
              (fun i hi => (hbase i hi).1) hin
            obtain ⟨tr, th⟩ := tree_of_correct (ot := false) (st := none) G RL hc h0s hsh.1
              (fun i hi => (hbase i hi).2) (fun i hi px h => ⟨(hinto i hi px h).1, adm_none⟩) hC hTop
            refine ⟨?_, ?_, ?_⟩
            · intro t ht
              rcases List.mem_cons.1 ht with rfl | ht
              · exact tr
              · exact i1 t ht
            · intro p x e
              rw [List.singleton_append, hasLoops, th, i2]
              simp
            · intro p x e f hs
              rw [List.singleton_append, seqLoops] at hs
              rcases hs with hs | ⟨h1, h2⟩ | hs
              · exact tr.seq p x e f hs
              · rw [th] at h1
                rw [i2] at h2
                obtain ⟨r', hr', h2⟩ := h2
                exact before_inst (hO.1 r' hr') h1 h2
              · exact i3 p x e f hs
  obtain ⟨k1, k2, k3⟩ := key R T
    (fun r hr => ⟨hS.shape r hr, hS.keys r hr, hS.base r hr, hS.into r hr⟩) hS.order h
  refine ⟨⟨fun p x e => ?_, k3⟩, k1⟩
  rw [k2, before_of_stage hS]

end Verif.Gen
