import Verif.Lemmas.GenSteps

/-! # Step 3 of the generation: constant levels, merging and separation -/

namespace Verif.Gen

open Verif.Loop Verif.Props.Separate Verif.ScalarSort Verif.Props.ScalarSort

variable {D S C Par : Type} {o : DomOps D S C} {mem : D → Par × Pt → Prop}

/-- Shape of the loops at level `L`. -/
def Sh (o : DomOps D S C) (L : Nat) (l : Loop D S) : Prop :=
  o.dim l.dom = L ∧ l.block = none ∧ l.stride = none

theorem flatMapM_mem {α β : Type} {f : α → Option (List β)} {l : List α} {r : List β}
    (h : flatMapM f l = some r) {b : β} (hb : b ∈ r) : ∃ a ∈ l, ∃ bs, f a = some bs ∧ b ∈ bs := by
  obtain ⟨gs, rfl, h2⟩ := flatMapM_spec h
  obtain ⟨g, hg, hbg⟩ := List.mem_flatten.1 hb
  clear h hb
  induction h2 with
  | nil => simp at hg
  | cons h1 _ ih =>
    rcases List.mem_cons.1 hg with rfl | hg
    · exact ⟨_, by simp, _, h1, hbg⟩
    · obtain ⟨a, ha, bs, h⟩ := ih hg
      exact ⟨a, by simp [ha], bs, h⟩

theorem splitRest_shape (G : GenLaws o mem) {L : Nat}
    {rec_ : Loop D S → Option (List (Loop D S))}
    (hrec : ∀ l g, Sh o L l → rec_ l = some g → ∀ m ∈ g, Sh o L m) (inner : List (Loop D S)) :
    ∀ (fuel : Nat) (rest seen : D) (g : List (Loop D S)), o.dim rest = L → o.dim seen = L →
      splitRest o rec_ none inner fuel rest seen = some g → ∀ m ∈ g, Sh o L m := by
  intro fuel
  induction fuel with
  | zero => intro rest seen g _ _ h; simp [splitRest] at h
  | succ fuel ih =>
    intro rest seen g hr hs h m hm
    have hc := G.dim_cut rest
    have hdd : o.dim (o.diff (o.cutFirst rest).1 seen) = L := by
      rw [G.dim_diff _ _ (by rw [hc.1, hr, hs]), hs]
    rw [splitRest] at h
    split at h
    · obtain rfl := Option.some.inj h
      simp at hm
    · split at h
      · exact ih _ _ g (by rw [hc.2, hr]) hs h m hm
      · split at h
        · exact absurd h (by simp)
        · rename_i pieces hp
          have hpieces : ∀ q ∈ pieces, Sh o L q := by
            intro q hq
            split at hp
            · obtain rfl := Option.some.inj hp
              rw [List.mem_singleton] at hq
              subst hq
              exact ⟨hdd, rfl, rfl⟩
            · exact hrec (.mk _ false none none inner) pieces ⟨hdd, rfl, rfl⟩ hp q hq
          split at h
          · obtain rfl := Option.some.inj h
            exact hpieces m hm
          · split at h
            · exact absurd h (by simp)
            · rename_i more hmore
              obtain rfl := Option.some.inj h
              rcases List.mem_append.1 hm with hm | hm
              · exact hpieces m hm
              · exact ih _ _ more (by rw [hc.2, hr]) (by rw [G.dim_union _ _ (by rw [hs, hdd]), hdd])
                  hmore m hm

theorem addDisjoint_shape (G : GenLaws o mem) {L : Nat} : ∀ (fuel : Nat) (l : Loop D S)
    (g : List (Loop D S)), Sh o L l → addDisjoint o fuel l = some g → ∀ m ∈ g, Sh o L m := by
  intro fuel
  induction fuel with
  | zero => intro l g _ h; simp [addDisjoint] at h
  | succ fuel ih =>
    intro l g hl h m hm
    rw [addDisjoint] at h
    split at h
    · obtain rfl := Option.some.inj h
      rw [List.mem_singleton] at hm
      rw [hm]
      exact hl
    · split at h
      · exact absurd h (by simp)
      · rename_i more hmore
        obtain rfl := Option.some.inj h
        have hc := G.dim_cut (o.simplifyUnion l.dom)
        have hs := G.dim_simplifyUnion l.dom
        rcases List.mem_cons.1 hm with rfl | hm
        · exact ⟨by rw [Loop.dom_mk, hc.1, hs, hl.1], hl.2.1, rfl⟩
        · rw [hl.2.1] at hmore
          exact splitRest_shape G ih l.inner fuel _ _ more (by rw [hc.2, hs, hl.1])
            (by rw [hc.1, hs, hl.1]) hmore m hm

theorem combineFrom_shape {L : Nat} : ∀ (ls : List (Loop D S)) (a : Loop D S), Sh o L a →
    (∀ l ∈ ls, Sh o L l) → ∀ m ∈ combineFrom o a ls, Sh o L m
  | [], a, ha, _, m, hm => by
    rw [combineFrom, List.mem_singleton] at hm
    rw [hm]; exact ha
  | b :: ls, a, ha, hls, m, hm => by
    rw [combineFrom] at hm
    split at hm
    · exact combineFrom_shape ls _ (by cases a; exact ha) (fun l hl => hls l (by simp [hl])) m hm
    · rcases List.mem_cons.1 hm with rfl | hm
      · exact ha
      · exact combineFrom_shape ls b (hls b (by simp)) (fun l hl => hls l (by simp [hl])) m hm

theorem combine_shape {L : Nat} {ls : List (Loop D S)} (h : ∀ l ∈ ls, Sh o L l) :
    ∀ m ∈ combine o ls, Sh o L m := by
  cases ls with
  | nil => simp [combine]
  | cons a ls =>
    exact combineFrom_shape ls a (h a (by simp)) (fun l hl => h l (by simp [hl]))

theorem sepPieces_shape (G : GenLaws o mem) {L : Nat} {res : List (Loop D S)} {uq : D}
    {l : Loop D S} (hres : ∀ q ∈ res, Sh o L q) (hu : o.dim uq = L) (hl : Sh o L l) :
    ∀ m ∈ sepPieces o res uq l, Sh o L m := by
  have hI : ∀ q ∈ res, ∀ m, sepInter o q l = some m → Sh o L m := by
    intro q hq m h
    unfold sepInter at h
    split at h
    · exact absurd h (by simp)
    · dsimp only at h
      by_cases he : o.lazyEqual q.dom l.dom = true
      · rw [if_pos he] at h
        split at h
        · exact absurd h (by simp)
        · obtain rfl := Option.some.inj h
          exact ⟨(hres q hq).1, rfl, rfl⟩
      · rw [if_neg he] at h
        split at h
        · exact absurd h (by simp)
        · obtain rfl := Option.some.inj h
          exact ⟨by rw [Loop.dom_mk, G.dim_inter _ _ (by rw [(hres q hq).1, hl.1]), hl.1], rfl, rfl⟩
  have hD : ∀ q ∈ res, ∀ m, sepDiff o q l = some m → Sh o L m := by
    intro q hq m h
    unfold sepDiff at h
    dsimp only at h
    have hdim : o.dim (if (sepInter o q l).isNone then q.dom
        else if o.lazyEqual q.dom l.dom then o.empty q.dom else o.diff q.dom l.dom) = L := by
      split
      · exact (hres q hq).1
      · split
        · rw [G.dim_empty, (hres q hq).1]
        · rw [G.dim_diff _ _ (by rw [(hres q hq).1, hl.1]), hl.1]
    generalize (if (sepInter o q l).isNone then q.dom
        else if o.lazyEqual q.dom l.dom then o.empty q.dom else o.diff q.dom l.dom) = d at h hdim
    split at h
    · exact absurd h (by simp)
    · obtain rfl := Option.some.inj h
      exact ⟨hdim, rfl, rfl⟩
  have hR : ∀ m, sepRest o uq l = some m → Sh o L m := by
    intro m h
    unfold sepRest at h
    dsimp only at h
    have hdim : o.dim (if o.lazyDisjoint l.dom uq then l.dom
        else if o.lazyEqual l.dom uq then o.empty uq else o.diff l.dom uq) = L := by
      split
      · exact hl.1
      · split
        · rw [G.dim_empty, hu]
        · rw [G.dim_diff _ _ (by rw [hl.1, hu]), hu]
    generalize (if o.lazyDisjoint l.dom uq then l.dom
        else if o.lazyEqual l.dom uq then o.empty uq else o.diff l.dom uq) = d at h hdim
    split at h
    · exact absurd h (by simp)
    · obtain rfl := Option.some.inj h
      exact ⟨hdim, rfl, rfl⟩
  intro m hm
  unfold sepPieces at hm
  rw [List.mem_append, List.mem_flatMap] at hm
  rcases hm with ⟨q, hq, hm⟩ | hm
  · rw [List.mem_append, Option.mem_toList, Option.mem_toList] at hm
    rcases hm with hm | hm
    · exact hI q hq m hm
    · exact hD q hq m hm
  · rw [Option.mem_toList] at hm
    exact hR m hm

theorem sepLoop_shape (G : GenLaws o mem) {L : Nat} (fuel : Nat) : ∀ (ls res : List (Loop D S))
    (uq : D) (out : List (Loop D S)), (∀ l ∈ ls, Sh o L l) → (∀ q ∈ res, Sh o L q) → o.dim uq = L →
    sepLoop o fuel ls res uq = some out → ∀ m ∈ out, Sh o L m := by
  intro ls
  induction ls with
  | nil =>
    intro res uq out _ hres _ h
    rw [sepLoop] at h
    obtain rfl := Option.some.inj h
    exact hres
  | cons l ls ih =>
    intro res uq out hls hres hu h
    rw [sepLoop] at h
    split at h
    · exact absurd h (by simp)
    · rename_i res' hres'
      have hl := hls l (by simp)
      refine ih res' _ out (fun l hl => hls l (by simp [hl])) ?_ ?_ h
      · intro m hm
        obtain ⟨a, ha, bs, hbs, hmb⟩ := flatMapM_mem hres' hm
        exact addDisjoint_shape G fuel a bs (sepPieces_shape G hres hu hl a ha) hbs m hmb
      · rw [G.dim_union _ _ (by rw [hu, hl.1]), hl.1]

theorem separate_shape (G : GenLaws o mem) {L fuel : Nat} {ls out : List (Loop D S)}
    (hls : ∀ l ∈ ls, Sh o L l) (h : separate o fuel ls = some out) : ∀ m ∈ out, Sh o L m := by
  have hc := combine_shape hls
  unfold separate at h
  split at h
  · obtain rfl := Option.some.inj h
    simp
  · rename_i l he
    rw [he] at hc
    intro m hm
    obtain ⟨a, ha, bs, hbs, hmb⟩ := flatMapM_mem h hm
    exact addDisjoint_shape G fuel a bs (hc a ha) hbs m hmb
  · rename_i l ls' _ he
    rw [he] at hc
    have hl := hc l (by simp)
    refine sepLoop_shape G fuel ls' _ _ out (fun l hl => hc l (by simp [hl])) ?_ hl.1 h
    intro q hq
    rw [List.mem_singleton] at hq
    subst hq
    exact ⟨hl.1, hl.2.1, rfl⟩

/-! ## Projection -/

theorem project_dom (G : GenLaws o mem) {L : Nat} {b : Loop D S} (h : L ≤ o.dim b.dom) :
    o.dim (Loop.project o L b).dom = L ∧ ∀ px, mem b.dom px → mem (Loop.project o L b).dom px := by
  unfold Loop.project
  rw [Loop.dom_mk]
  split
  · rename_i he
    exact ⟨he, fun px h => h⟩
  · exact ⟨G.dim_project _ _ h, fun px => G.project _ _ px h⟩

theorem projectAll_shape (G : GenLaws o mem) {L : Nat} {B : List (Loop D S)}
    (hB : ∀ b ∈ B, L ≤ o.dim b.dom) : ∀ l ∈ projectAll o B L, Sh o L l := by
  intro l hl
  unfold projectAll at hl
  obtain ⟨b, hb, rfl⟩ := List.mem_map.1 hl
  exact ⟨(project_dom G (hB b hb)).1, rfl, rfl⟩

open Classical in
theorem flow_projectAll (B : List (Loop D S)) (L : Nat) (px : Par × Pt) :
    flow mem (projectAll o B L) px =
      B.filter (fun b => decide (mem (Loop.project o L b).dom px)) := by
  unfold flow projectAll
  induction B with
  | nil => rfl
  | cons b B ih =>
    rw [List.map_cons, List.flatMap_cons, ih, List.filter_cons]
    have hi : (Loop.project o L b).inner = [b] := rfl
    by_cases h : mem (Loop.project o L b).dom px
    · rw [if_pos h, hi, if_pos (decide_eq_true h)]; rfl
    · rw [if_neg h, if_neg (by simpa using h)]; rfl

theorem separate_pieces (G : GenLaws o mem) {L fuel : Nat} {B Q : List (Loop D S)}
    (hB : ∀ b ∈ B, L ≤ o.dim b.dom) (h : separate o fuel (projectAll o B L) = some Q) :
    Pieces o mem L B Q := by
  obtain ⟨_, h2, h3, _, h5⟩ := C17_separate G.toSetLaws fuel _ _ h
  refine ⟨separate_shape G (projectAll_shape G hB) h, h2, ?_, ?_⟩
  · intro b hb px hpx
    exact (h3 px).2 ⟨Loop.project o L b, List.mem_map_of_mem hb, (project_dom G (hB b hb)).2 px hpx⟩
  · intro q hq px hpx
    rw [h5 q hq px hpx, flow_projectAll]
    refine ⟨List.filter_sublist, fun b hb hbx => ?_⟩
    rw [List.mem_filter]
    exact ⟨hb, by simpa using (project_dom G (hB b hb)).2 px hbx⟩

/-! ## Merging and constant levels -/

theorem unionDom_spec (G : GenLaws o mem) {L : Nat} : ∀ (ls : List (Loop D S)) (d : D), o.dim d = L →
    (∀ l ∈ ls, o.dim l.dom = L) → o.dim (unionDom o d ls) = L ∧
      ∀ px, mem (unionDom o d ls) px ↔ mem d px ∨ ∃ l ∈ ls, mem l.dom px
  | [], d, hd, _ => by simp [unionDom, hd]
  | l :: ls, d, hd, hls => by
    have hl := hls l (by simp)
    have ih := unionDom_spec G ls (o.union d l.dom) (by rw [G.dim_union _ _ (by rw [hd, hl]), hl])
      (fun l hl => hls l (by simp [hl]))
    rw [unionDom]
    refine ⟨ih.1, fun px => ?_⟩
    rw [ih.2, G.union]
    simp [or_assoc]

theorem bounding_spec (G : GenLaws o mem) (opt : Options) (d : D) :
    o.dim (boundingDomain o opt d) = o.dim d ∧ ∀ px, mem d px → mem (boundingDomain o opt d) px := by
  unfold boundingDomain
  split
  · exact ⟨G.dim_simpleConvex d, G.simpleConvex d⟩
  · exact ⟨G.dim_convex d, G.convex d⟩

theorem flatMap_inner_projectAll (B : List (Loop D S)) (L : Nat) :
    (projectAll o B L).flatMap Loop.inner = B := by
  unfold projectAll
  induction B with
  | nil => rfl
  | cons b B ih =>
    rw [List.map_cons, List.flatMap_cons, ih]
    simp [Loop.project]

theorem single_pieces {L : Nat} {B : List (Loop D S)} {d : D} (hd : o.dim d = L)
    (hc : ∀ b ∈ B, ∀ px, mem b.dom px → mem d px) :
    Pieces o mem L B [.mk d false none none B] := by
  refine ⟨by simp [hd], by simp, ?_, ?_⟩
  · intro b hb px hpx
    exact ⟨_, List.mem_singleton.2 rfl, hc b hb px hpx⟩
  · intro q hq px _
    rw [List.mem_singleton] at hq
    subst hq
    exact ⟨by simp, fun b hb _ => hb⟩

theorem unionDom_cover (G : GenLaws o mem) {L : Nat} {B : List (Loop D S)} {l : Loop D S}
    {ls : List (Loop D S)} (hB : ∀ b ∈ B, L ≤ o.dim b.dom) (e : projectAll o B L = l :: ls) :
    o.dim (unionDom o l.dom ls) = L ∧ ∀ b ∈ B, ∀ px, mem b.dom px → mem (unionDom o l.dom ls) px := by
  have hs := projectAll_shape G hB
  rw [e] at hs
  have hu := unionDom_spec G ls l.dom (hs l (by simp)).1 (fun m hm => (hs m (by simp [hm])).1)
  refine ⟨hu.1, fun b hb px hpx => ?_⟩
  rw [hu.2]
  have hm : Loop.project o L b ∈ projectAll o B L := List.mem_map_of_mem hb
  have hp := (project_dom G (hB b hb)).2 px hpx
  rw [e] at hm
  rcases List.mem_cons.1 hm with h | h
  · left; rw [← h]; exact hp
  · right; exact ⟨_, h, hp⟩

theorem constant_pieces (G : GenLaws o mem) {L : Nat} {B : List (Loop D S)}
    (hB : ∀ b ∈ B, L ≤ o.dim b.dom) : Pieces o mem L B (constant o (projectAll o B L)) := by
  cases e : projectAll o B L with
  | nil =>
    have : B = [] := by
      unfold projectAll at e
      exact List.map_eq_nil_iff.1 e
    subst this
    exact ⟨by simp [constant], by simp [constant], by simp, by simp [constant]⟩
  | cons l ls =>
    have hu := unionDom_cover G hB e
    rw [constant]
    rw [← e, flatMap_inner_projectAll]
    refine single_pieces ?_ ?_
    · rw [G.dim_simpleConvex, hu.1]
    · intro b hb px hpx
      exact G.simpleConvex _ _ (hu.2 b hb px hpx)

/-- The loops for the parts of a splitter. -/
theorem mergeSplit_spec (G : GenLaws o mem) {Sp : D → Prop} (opt : Options) {L : Nat} {t : D}
    (ht : o.dim t = L) (inner : List (Loop D S))
    (hSp : ∀ s, Sp s → (o.isConvex s = false → Sp (o.cutFirst s).2 ∧
        ∀ px, ¬ (mem (o.cutFirst s).1 px ∧ mem (o.cutFirst s).2 px)) ∧
      (∀ t px opt, mem (boundingDomain o opt (o.inter (o.cutFirst s).1 t)) px →
        mem (o.cutFirst s).1 px) ∧
      (o.isConvex s = true → ∀ t px opt, mem (boundingDomain o opt (o.inter s t)) px → mem s px)) :
    ∀ (fuel : Nat) (s : D) (res out : List (Loop D S)), Sp s → o.dim s = L →
      (∀ r ∈ res, Sh o L r ∧ r.inner = inner ∧ ∀ px, ¬ (mem r.dom px ∧ mem s px)) →
      res.Pairwise (Disj mem) → mergeSplit o opt t inner fuel s res = some out →
      (∀ r ∈ out, Sh o L r ∧ r.inner = inner) ∧ out.Pairwise (Disj mem) ∧
      (∀ r ∈ res, r ∈ out) ∧ ∀ px, mem s px → mem t px → ∃ r ∈ out, mem r.dom px := by
  intro fuel
  induction fuel with
  | zero => intro s res out _ _ _ _ h; simp [mergeSplit] at h
  | succ fuel ih =>
    intro s res out hs hd hres hdisj h
    obtain ⟨k1, k2, k3⟩ := hSp s hs
    rw [mergeSplit] at h
    split at h
    · rename_i hcv
      have hb := bounding_spec G opt (o.inter s t)
      have hdn : o.dim (boundingDomain o opt (o.inter s t)) = L := by
        rw [hb.1, G.dim_inter _ _ (by rw [hd, ht]), ht]
      dsimp only at h
      split at h
      · rename_i he
        obtain rfl := Option.some.inj h
        refine ⟨fun r hr => ⟨(hres r hr).1, (hres r hr).2.1⟩, hdisj, fun r hr => hr, ?_⟩
        intro px hsx htx
        exact (G.isEmpty _ he px (hb.2 px ((G.inter _ _ _).2 ⟨hsx, htx⟩))).elim
      · obtain rfl := Option.some.inj h
        refine ⟨?_, ?_, fun r hr => by simp [hr], ?_⟩
        · intro r hr
          rcases List.mem_cons.1 hr with rfl | hr
          · exact ⟨⟨hdn, rfl, rfl⟩, rfl⟩
          · exact ⟨(hres r hr).1, (hres r hr).2.1⟩
        · rw [List.pairwise_cons]
          refine ⟨fun r hr px hpx => ?_, hdisj⟩
          exact (hres r hr).2.2 px ⟨hpx.2, k3 hcv t px opt hpx.1⟩
        · intro px hsx htx
          exact ⟨_, List.mem_cons_self, hb.2 px ((G.inter _ _ _).2 ⟨hsx, htx⟩)⟩
    · rename_i hcv
      have hcv : o.isConvex s = false := by simpa using hcv
      obtain ⟨k1a, k1b⟩ := k1 hcv
      have hcd := G.dim_cut s
      have hb := bounding_spec G opt (o.inter (o.cutFirst s).1 t)
      have hdn : o.dim (boundingDomain o opt (o.inter (o.cutFirst s).1 t)) = L := by
        rw [hb.1, G.dim_inter _ _ (by rw [hcd.1, hd, ht]), ht]
      dsimp only at h
      by_cases he : o.isEmpty (boundingDomain o opt (o.inter (o.cutFirst s).1 t)) = true
      · rw [if_pos he] at h
        obtain ⟨r1, r2, r3, r4⟩ := ih _ res out k1a (by rw [hcd.2, hd])
          (fun r hr => ⟨(hres r hr).1, (hres r hr).2.1, fun px hpx =>
            (hres r hr).2.2 px ⟨hpx.1, (G.cutFirst s px).2 (Or.inr hpx.2)⟩⟩) hdisj h
        refine ⟨r1, r2, r3, fun px hsx htx => ?_⟩
        rcases (G.cutFirst s px).1 hsx with h1 | h1
        · exact (G.isEmpty _ he px (hb.2 px ((G.inter _ _ _).2 ⟨h1, htx⟩))).elim
        · exact r4 px h1 htx
      · rw [if_neg he] at h
        obtain ⟨r1, r2, r3, r4⟩ := ih _ (.mk (boundingDomain o opt (o.inter (o.cutFirst s).1 t))
            false none none inner :: res) out k1a (by rw [hcd.2, hd])
          (by
            intro r hr
            rcases List.mem_cons.1 hr with rfl | hr
            · refine ⟨⟨hdn, rfl, rfl⟩, rfl, fun px hpx => k1b px ⟨k2 t px opt hpx.1, hpx.2⟩⟩
            · exact ⟨(hres r hr).1, (hres r hr).2.1, fun px hpx =>
                (hres r hr).2.2 px ⟨hpx.1, (G.cutFirst s px).2 (Or.inr hpx.2)⟩⟩)
          (by
            rw [List.pairwise_cons]
            refine ⟨fun r hr px hpx => ?_, hdisj⟩
            exact (hres r hr).2.2 px ⟨hpx.2, (G.cutFirst s px).2 (Or.inl (k2 t px opt hpx.1))⟩) h
        refine ⟨r1, r2, fun r hr => r3 r (by simp [hr]), fun px hsx htx => ?_⟩
        rcases (G.cutFirst s px).1 hsx with h1 | h1
        · exact ⟨_, r3 _ List.mem_cons_self, hb.2 px ((G.inter _ _ _).2 ⟨h1, htx⟩)⟩
        · exact r4 px h1 htx

theorem merge_pieces (G : GenLaws o mem) {L fuel : Nat} {opt : Options} {B Q : List (Loop D S)}
    (hB : ∀ b ∈ B, L ≤ o.dim b.dom) (h : merge o fuel L opt (projectAll o B L) = some Q) :
    Pieces o mem L B Q := by
  cases e : projectAll o B L with
  | nil =>
    rw [e, merge] at h
    obtain rfl := Option.some.inj h
    have : B = [] := by
      unfold projectAll at e
      exact List.map_eq_nil_iff.1 e
    subst this
    exact ⟨by simp, by simp, by simp, by simp⟩
  | cons l ls =>
    have hu := unionDom_cover G hB e
    rw [e, merge] at h
    split at h
    · rename_i hcv
      obtain rfl := Option.some.inj h
      have hls : ls = [] := by simpa using hcv.1
      subst hls
      unfold projectAll at e
      match B, e with
      | [b], e =>
        simp only [List.map_cons, List.map_nil, List.cons.injEq, and_true] at e
        subst e
        have hp := project_dom G (hB b (by simp))
        exact single_pieces (B := [b]) hp.1 (by
          intro b' hb'
          rw [List.mem_singleton.1 hb']
          exact hp.2)
    · dsimp only at h
      rw [← e, flatMap_inner_projectAll] at h
      have hb := bounding_spec G opt (unionDom o l.dom ls)
      split at h
      · obtain ⟨Sp, s1, s2, s3, s4⟩ := G.splitter
        obtain ⟨r1, r2, _, r4⟩ := mergeSplit_spec G opt hu.1 B s4 fuel _ [] Q (s1 _ _)
          (by rw [s3, hu.1]) (by simp) (by simp) h
        refine ⟨fun q hq => (r1 q hq).1, r2, ?_, ?_⟩
        · intro b hb' px hpx
          exact r4 px (s2 _ _ _) (hu.2 b hb' px hpx)
        · intro q hq px _
          rw [(r1 q hq).2]
          exact ⟨by simp, fun b hb _ => hb⟩
      · obtain rfl := Option.some.inj h
        refine single_pieces (by rw [hb.1, hu.1]) ?_
        intro b hb' px hpx
        exact hb.2 px (hu.2 b hb' px hpx)

/-- Step 3 of `cloog_loop_generate_general`. -/
theorem step3_pieces (G : GenLaws o mem) {L s fuel : Nat} {c : Ctx} {first : Int}
    {B Q : List (Loop D S)} {sep cst : Bool} (hB : ∀ b ∈ B, L ≤ o.dim b.dom)
    (h : step3 o fuel c L s first (projectAll o B L) = some (Q, sep, cst)) : Pieces o mem L B Q := by
  unfold step3 at h
  split at h
  · simp only [Option.some.injEq, Prod.mk.injEq] at h
    obtain ⟨rfl, _, _⟩ := h
    exact constant_pieces G hB
  · split at h
    · rw [Option.map_eq_some_iff] at h
      obtain ⟨r, hr, h⟩ := h
      simp only [Prod.mk.injEq] at h
      obtain ⟨rfl, _, _⟩ := h
      exact merge_pieces G hB hr
    · rw [Option.map_eq_some_iff] at h
      obtain ⟨r, hr, h⟩ := h
      simp only [Prod.mk.injEq] at h
      obtain ⟨rfl, _, _⟩ := h
      exact separate_pieces G hB hr

end Verif.Gen
