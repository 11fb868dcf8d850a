import Verif.Lemmas.Gen
import Verif.Props.ScalarSort
import Verif.Props.Tarjan

/-! # The steps of the generation: pieces, sorting, restriction -/

namespace Verif.Gen

open Verif.Loop Verif.Props.Separate Verif.ScalarSort Verif.Props.ScalarSort

variable {D S C Par : Type}

/-- The scalar vector of a block. -/
def scalF (b : Block) : Nat → Int := fun i => b.scal.getD i 0

/-- The properties of an order of instances on which the generation rests; `Rel L s e f` compares the
time stamps from level `L` and scalar position `s` on. -/
structure RelLaws (flags : List Bool) (ord : Block → Block → Prop)
    (Rel : Nat → Nat → Inst → Inst → Prop) : Prop where
  value : ∀ L s e f, 0 < L → levelIsConstant L s flags = false → L ≤ e.args.length →
    L ≤ f.args.length → e.args.getD (L - 1) 0 < f.args.getD (L - 1) 0 → Rel L s e f
  next : ∀ L s e f, 0 < L → levelIsConstant L s flags = false → L ≤ e.args.length →
    L ≤ f.args.length → e.args.getD (L - 1) 0 = f.args.getD (L - 1) 0 → Rel (L + 1) s e f → Rel L s e f
  zero : ∀ e f, Rel 1 0 e f → Rel 0 0 e f
  term : ∀ L s e f, flags.length < L + s → (e.args.length < L ∨ f.args.length < L) →
    ord e.block f.block → Rel L s e f
  scalLt : ∀ L s k e f, IsRun L flags s k → LexLt s k (scalF e.block) (scalF f.block) → Rel L s e f
  scalEq : ∀ L s k e f, IsRun L flags s k → LexEq s k (scalF e.block) (scalF f.block) →
    Rel L (s + k) e f → Rel L s e f

variable {o : DomOps D S C} {mem : D → Par × Pt → Prop} {ok : Nat → S → Par × Pt → Prop}

/-! ## Restriction -/

theorem restrict_spec (G : GenLaws o mem) {l r : Loop D S} {c : D} (hd : o.dim c ≤ o.dim l.dom)
    (h : restrict o l c = some r) :
    r.block = l.block ∧ r.inner = l.inner ∧ r.stride = none ∧ o.dim r.dom = o.dim l.dom ∧
      ∀ px, mem r.dom px ↔ mem c px ∧ mem l.dom px := by
  unfold restrict at h
  dsimp only at h
  by_cases hlt : o.dim c < o.dim l.dom
  · rw [if_pos hlt] at h
    split at h
    · exact absurd h (by simp)
    · obtain rfl := Option.some.inj h
      refine ⟨rfl, rfl, rfl, G.dim_inter _ _ (G.dim_extend _ _ (by omega)), fun px => ?_⟩
      rw [Loop.dom_mk, G.inter, G.extend _ _ _ (by omega)]
  · rw [if_neg hlt] at h
    split at h
    · exact absurd h (by simp)
    · obtain rfl := Option.some.inj h
      refine ⟨rfl, rfl, rfl, G.dim_inter _ _ (by omega), fun px => ?_⟩
      rw [Loop.dom_mk, G.inter]

theorem restrict_none (G : GenLaws o mem) {l : Loop D S} {c : D} (hd : o.dim c ≤ o.dim l.dom)
    (h : restrict o l c = none) (px : Par × Pt) (h1 : mem c px) (h2 : mem l.dom px) : False := by
  unfold restrict at h
  dsimp only at h
  by_cases hlt : o.dim c < o.dim l.dom
  · rw [if_pos hlt] at h
    split at h
    · rename_i he
      exact G.isEmpty _ he px ((G.inter _ _ _).2 ⟨(G.extend _ _ _ (by omega)).2 h1, h2⟩)
    · exact absurd h (by simp)
  · rw [if_neg hlt] at h
    split at h
    · rename_i he
      exact G.isEmpty _ he px ((G.inter _ _ _).2 ⟨h1, h2⟩)
    · exact absurd h (by simp)

/-- A restricted loop is not empty. -/
theorem restrict_point (G : GenLaws o mem) {l r : Loop D S} {c : D} (h : restrict o l c = some r) :
    ∃ px, mem r.dom px := by
  unfold restrict at h
  dsimp only at h
  generalize (if o.dim c < o.dim l.dom then o.inter (o.extend c (o.dim l.dom)) l.dom
    else o.inter c l.dom) = nd at h
  split at h
  · exact absurd h (by simp)
  · rename_i he
    obtain rfl := Option.some.inj h
    by_contra hn
    push Not at hn
    exact he (G.isEmpty_of _ hn)

/-- What `cloog_loop_restrict_all` does to a list of loops. -/
structure Restricted (o : DomOps D S C) (mem : D → Par × Pt → Prop) (B : List (Loop D S)) (c : D)
    (R : List (Loop D S)) : Prop where
  keys : (keys o R).Sublist (keys o B)
  sound : ∀ r ∈ R, ∃ b ∈ B, b.block = r.block ∧ o.dim b.dom = o.dim r.dom ∧ b.inner = r.inner ∧
    ∀ px, mem r.dom px ↔ mem c px ∧ mem b.dom px
  cover : ∀ b ∈ B, ∀ px, mem b.dom px → mem c px → ∃ r ∈ R, r.block = b.block ∧
    o.dim r.dom = o.dim b.dom ∧ mem r.dom px
  point : ∀ r ∈ R, ∃ px, mem r.dom px

theorem restrictAll_spec (G : GenLaws o mem) (c : D) : ∀ (B : List (Loop D S)),
    (∀ b ∈ B, o.dim c ≤ o.dim b.dom) → Restricted o mem B c (restrictAll o B c)
  | [], _ => ⟨by simp [restrictAll, keys], by simp [restrictAll], by simp, by simp [restrictAll]⟩
  | b :: B, hd => by
    have ih := restrictAll_spec G c B (fun b hb => hd b (by simp [hb]))
    have hb := hd b (by simp)
    cases hr : restrict o b c with
    | none =>
      have e : restrictAll o (b :: B) c = restrictAll o B c := by simp [restrictAll, hr]
      rw [e]
      refine ⟨?_, ?_, ?_, ih.point⟩
      · exact ih.keys.trans (by simp [keys])
      · intro r hr'
        obtain ⟨b', hb', h⟩ := ih.sound r hr'
        exact ⟨b', by simp [hb'], h⟩
      · intro b' hb' px h1 h2
        rcases List.mem_cons.1 hb' with rfl | hb'
        · exact (restrict_none G hb hr px h2 h1).elim
        · exact ih.cover b' hb' px h1 h2
    | some r =>
      have e : restrictAll o (b :: B) c = r :: restrictAll o B c := by simp [restrictAll, hr]
      have hs := restrict_spec G hb hr
      rw [e]
      refine ⟨?_, ?_, ?_, ?_⟩
      · unfold keys
        rw [List.map_cons, List.map_cons, hs.1, hs.2.2.2.1]
        exact List.Sublist.cons_cons _ ih.keys
      · intro r' hr'
        rcases List.mem_cons.1 hr' with rfl | hr'
        · exact ⟨b, by simp, hs.1.symm, hs.2.2.2.1.symm, hs.2.1.symm, hs.2.2.2.2⟩
        · obtain ⟨b', hb', h⟩ := ih.sound r' hr'
          exact ⟨b', by simp [hb'], h⟩
      · intro b' hb' px h1 h2
        rcases List.mem_cons.1 hb' with rfl | hb'
        · exact ⟨r, by simp, hs.1, hs.2.2.2.1, (hs.2.2.2.2 px).2 ⟨h2, h1⟩⟩
        · obtain ⟨r', hr', h⟩ := ih.cover b' hb' px h1 h2
          exact ⟨r', by simp [hr'], h⟩
      · intro r' hr'
        rcases List.mem_cons.1 hr' with rfl | hr'
        · exact restrict_point G hr
        · exact ih.point r' hr'

/-! ## Pieces -/

/-- The loops that result from step 3 of `cloog_loop_generate_general`, for the statement loops `B`:
disjoint pieces that cover the projections, each with the statements that may have points there. -/
structure Pieces (o : DomOps D S C) (mem : D → Par × Pt → Prop) (L : Nat) (B Q : List (Loop D S)) :
    Prop where
  shape : ∀ q ∈ Q, o.dim q.dom = L ∧ q.block = none ∧ q.stride = none
  disj : Q.Pairwise (Disj mem)
  cover : ∀ b ∈ B, ∀ px, mem b.dom px → ∃ q ∈ Q, mem q.dom px
  inner : ∀ q ∈ Q, ∀ px, mem q.dom px → q.inner.Sublist B ∧ ∀ b ∈ B, mem b.dom px → b ∈ q.inner

/-- The pieces are in the order of the iterator of level `L`. -/
def Ordered (mem : D → Par × Pt → Prop) (L : Nat) (Q : List (Loop D S)) : Prop :=
  Q.Pairwise (fun a b => ∀ p x y, mem a.dom (p, x) → mem b.dom (p, y) → Agree L x y →
    0 < L ∧ x (L - 1) < y (L - 1))

theorem agree_dim (G : GenLaws o mem) {d : D} {L : Nat} {p : Par} {x y : Pt} (hd : o.dim d ≤ L)
    (h : Agree (L + 1) x y) : mem d (p, x) ↔ mem d (p, y) :=
  G.congr_iff (fun i hi => h i (by omega))

theorem agree_succ {L : Nat} {x y : Pt} (h : Agree L x y) (hL : 0 < L) (e : x (L - 1) = y (L - 1)) :
    Agree (L + 1) x y := by
  intro i hi
  rcases Nat.lt_or_ge (i + 1) L with h' | h'
  · exact h i h'
  · have : i = L - 1 := by omega
    rw [this, e]

theorem filterMap_range {α : Type} (l : List α) :
    (List.range l.length).filterMap (fun i => l[i]?) = l := by
  have h : (List.range l.length).map (fun i => l[i]?) = l.map some := by
    apply List.ext_getElem
    · simp
    · intro n h1 h2
      simp at h1 h2
      simp [h1]
  have : (List.range l.length).filterMap (fun i => l[i]?) =
      ((List.range l.length).map (fun i => l[i]?)).filterMap id := by
    rw [List.filterMap_map]; rfl
  rw [this, h, List.filterMap_map]
  simp

theorem disj_symm {a b : Loop D S} (h : Disj mem a b) : Disj mem b a := fun x hx => h x hx.symm

/-- Disjoint pieces of dimension `L` at points that agree outside of level `L` have different values
there. -/
theorem disj_ne (G : GenLaws o mem) {L : Nat} {a b : Loop D S} (hb : o.dim b.dom = L)
    (h : Disj mem a b) {p : Par} {x y : Pt} (hx : mem a.dom (p, x)) (hy : mem b.dom (p, y))
    (hxy : Agree L x y) : 0 < L ∧ x (L - 1) ≠ y (L - 1) := by
  rcases Nat.eq_zero_or_pos L with h0 | h0
  · exact (h (p, x) ⟨hx, (G.congr_iff (fun i hi => by rw [hb, h0] at hi; omega)).1 hy⟩).elim
  · refine ⟨h0, fun e => h (p, x) ⟨hx, ?_⟩⟩
    exact (agree_dim G (Nat.le_of_eq hb) (agree_succ hxy h0 e)).2 hy

theorem sort_spec (G : GenLaws o mem) {L : Nat} {Q R : List (Loop D S)}
    (hd : ∀ q ∈ Q, o.dim q.dom = L) (hdisj : Q.Pairwise (Disj mem)) (h : Loop.sort o L Q = some R) :
    R.Perm Q ∧ Ordered mem L R := by
  unfold Loop.sort at h
  split at h
  · rename_i h0
    obtain rfl := Option.some.inj h
    refine ⟨List.Perm.refl _, ?_⟩
    unfold Ordered
    refine List.Pairwise.imp_of_mem ?_ hdisj
    intro a b ha hb hab p x y hx hy hxy
    have := disj_ne G (hd b hb) hab hx hy hxy
    omega
  · rename_i h0
    split at h
    · rename_i h1
      obtain rfl := Option.some.inj h
      refine ⟨List.Perm.refl _, ?_⟩
      unfold Ordered
      match Q, h1 with
      | [q], _ => simp
    · split at h
      · exact absurd h (by simp)
      · rename_i perm hp
        obtain rfl := Option.some.inj h
        obtain ⟨hperm, hord⟩ := G.sort _ _ _ (by omega) hp
        have hP : (perm.filterMap (fun i => Q[i]?)).Perm Q := by
          have := hperm.filterMap (fun i => Q[i]?)
          rw [List.length_map, filterMap_range] at this
          exact this
        refine ⟨hP, ?_⟩
        have hle : (perm.filterMap (fun i => Q[i]?)).Pairwise (fun a b => ∀ p x y,
            mem a.dom (p, x) → mem b.dom (p, y) → Agree L x y → x (L - 1) ≤ y (L - 1)) := by
          rw [List.pairwise_filterMap]
          refine hord.imp ?_
          intro i j hij a ha b hb
          exact hij a.dom b.dom (by simp [ha]) (by simp [hb])
        have hD : (perm.filterMap (fun i => Q[i]?)).Pairwise (Disj mem) :=
          (hP.pairwise_iff (fun h => disj_symm h)).2 hdisj
        unfold Ordered
        refine List.Pairwise.imp_of_mem ?_ (hle.and hD)
        intro a b ha hb hab p x y hx hy hxy
        have h1 := hab.1 p x y hx hy hxy
        have h2 := disj_ne G (hd b (hP.subset hb)) hab.2 hx hy hxy
        exact ⟨h2.1, by omega⟩

/-! ## The state after step 3 -/

/-- The instances of two loops at points that agree outside of level `L` are in the order `Rel`. -/
def Before (o : DomOps D S C) (mem : D → Par × Pt → Prop) (Rel : Nat → Nat → Inst → Inst → Prop)
    (L s : Nat) (i j : Loop D S) : Prop :=
  ∀ p x y, mem i.dom (p, x) → mem j.dom (p, y) → Agree L x y → ∀ e f, At o i x e → At o j y f →
    Rel L s e f

/-- Loops of level `L`. -/
def Nd (o : DomOps D S C) (L : Nat) (l : Loop D S) : Prop := o.dim l.dom = L ∧ l.block = none

/-- The stride of a loop, if any, admits the points with the same values up to level `L`. -/
def Adm (ok : Nat → S → Par × Pt → Prop) (L : Nat) (st : Option S) (px : Par × Pt) : Prop :=
  ∀ s, st = some s → ∀ y, Agree (L + 1) px.2 y → ok L s (px.1, y)

theorem adm_none {L : Nat} {px : Par × Pt} :
    Adm ok L (none : Option S) px := fun _ h => absurd h (by simp)

/-- The loops after step 3 of `cloog_loop_generate_general`: every statement instance belongs to
exactly one of the inner loops. -/
structure Stage (o : DomOps D S C) (mem : D → Par × Pt → Prop) (ok : Nat → S → Par × Pt → Prop)
    (Rel : Nat → Nat → Inst → Inst → Prop) (L s : Nat) (B R : List (Loop D S)) : Prop where
  shape : ∀ r ∈ R, Nd o L r
  keys : ∀ r ∈ R, (keys o r.inner).Sublist (keys o B)
  base : ∀ r ∈ R, ∀ i ∈ r.inner, i.inner = [] ∧ L ≤ o.dim i.dom
  into : ∀ r ∈ R, ∀ i ∈ r.inner, ∀ px, mem i.dom px → mem r.dom px ∧ Adm ok L r.stride px
  cover : ∀ b ∈ B, ∀ px, mem b.dom px → ∃ r ∈ R, ∃ i ∈ r.inner, i.block = b.block ∧
    o.dim i.dom = o.dim b.dom ∧ mem i.dom px
  sound : ∀ r ∈ R, ∀ i ∈ r.inner, ∃ b ∈ B, b.block = i.block ∧ o.dim b.dom = o.dim i.dom ∧
    ∀ px, mem i.dom px → mem b.dom px
  order : R.Pairwise (fun r t => ∀ i ∈ r.inner, ∀ j ∈ t.inner, Before o mem Rel L s i j)

theorem keys_sublist {A B : List (Loop D S)} (h : A.Sublist B) : (keys o A).Sublist (keys o B) :=
  h.map _

theorem at_getD {i : Loop D S} {x : Pt} {e : Inst} (h : At o i x e) {k : Nat}
    (hk : k < o.dim i.dom) : e.args.getD k 0 = x k := by
  rw [h.2, argsOf_getD _ hk]

theorem at_length {i : Loop D S} {x : Pt} {e : Inst} (h : At o i x e) :
    e.args.length = o.dim i.dom := by
  rw [h.2, argsOf_length]

/-- Sorting the pieces and restricting the statements to them. -/
theorem restrictInner_stage (G : GenLaws o mem) {flags : List Bool} {ord : Block → Block → Prop}
    {Rel : Nat → Nat → Inst → Inst → Prop} (RL : RelLaws flags ord Rel) {L s : Nat}
    (hc : levelIsConstant L s flags = false) {B Q R : List (Loop D S)}
    (hB : ∀ b ∈ B, b.inner = [] ∧ L ≤ o.dim b.dom) (hQ : Pieces o mem L B Q)
    (hP : R.Perm Q) (hO : Ordered mem L R) : Stage o mem ok Rel L s B (restrictInner o R) := by
  have hsh : ∀ r ∈ R, o.dim r.dom = L ∧ r.block = none ∧ r.stride = none :=
    fun r hr => hQ.shape r (hP.subset hr)
  have hmem : ∀ t, t ∈ restrictInner o R ↔ ∃ r ∈ R, restrictAll o r.inner r.dom ≠ [] ∧
      t = r.setInner (restrictAll o r.inner r.dom) := by
    intro t
    unfold restrictInner
    rw [List.mem_filterMap]
    constructor
    · rintro ⟨r, hr, h⟩
      split at h
      · exact absurd h (by simp)
      · rename_i hne
        refine ⟨r, hr, by simpa using hne, (Option.some.inj h).symm⟩
    · rintro ⟨r, hr, hne, rfl⟩
      exact ⟨r, hr, by rw [if_neg (by simpa using hne)]⟩
  -- the statements of a piece with a point
  have hin : ∀ r ∈ R, ∀ px, mem r.dom px → r.inner.Sublist B ∧
      ∀ b ∈ B, mem b.dom px → b ∈ r.inner := fun r hr px h => hQ.inner r (hP.subset hr) px h
  have hpt : ∀ r ∈ R, restrictAll o r.inner r.dom ≠ [] → r.inner.Sublist B := by
    intro r hr hne
    obtain ⟨t, ts, ht⟩ := List.exists_cons_of_ne_nil hne
    have : t ∈ restrictAll o r.inner r.dom := by rw [ht]; simp
    unfold restrictAll at this
    rw [List.mem_filterMap] at this
    obtain ⟨i, hi, hri⟩ := this
    obtain ⟨px, hpx⟩ := restrict_point G hri
    unfold restrict at hri
    dsimp only at hri
    have hr' : ∃ px, mem r.dom px := by
      by_cases hlt : o.dim r.dom < o.dim i.dom
      · rw [if_pos hlt] at hri
        split at hri
        · exact absurd hri (by simp)
        · obtain rfl := Option.some.inj hri
          rw [Loop.dom_mk, G.inter, G.extend _ _ _ (by omega)] at hpx
          exact ⟨px, hpx.1⟩
      · rw [if_neg hlt] at hri
        split at hri
        · exact absurd hri (by simp)
        · obtain rfl := Option.some.inj hri
          rw [Loop.dom_mk, G.inter] at hpx
          exact ⟨px, hpx.1⟩
    obtain ⟨px, hpx⟩ := hr'
    exact (hin r hr px hpx).1
  have hres : ∀ r ∈ R, r.inner.Sublist B →
      Restricted o mem r.inner r.dom (restrictAll o r.inner r.dom) := by
    intro r hr hs
    refine restrictAll_spec G _ _ (fun b hb => ?_)
    rw [(hsh r hr).1]
    exact (hB b (hs.subset hb)).2
  refine ⟨?_, ?_, ?_, ?_, ?_, ?_, ?_⟩
  · intro t ht
    obtain ⟨r, hr, hne, rfl⟩ := (hmem t).1 ht
    exact ⟨(hsh r hr).1, (hsh r hr).2.1⟩
  · intro t ht
    obtain ⟨r, hr, hne, rfl⟩ := (hmem t).1 ht
    exact (hres r hr (hpt r hr hne)).keys.trans (keys_sublist (hpt r hr hne))
  · intro t ht i hi
    obtain ⟨r, hr, hne, rfl⟩ := (hmem t).1 ht
    obtain ⟨b, hb, h1, h2, h3, h4⟩ := (hres r hr (hpt r hr hne)).sound i hi
    have := hB b ((hpt r hr hne).subset hb)
    rw [← h3, ← h2]
    exact this
  · intro t ht i hi px hpx
    obtain ⟨r, hr, hne, rfl⟩ := (hmem t).1 ht
    obtain ⟨b, hb, h1, h2, h3, h4⟩ := (hres r hr (hpt r hr hne)).sound i hi
    refine ⟨((h4 px).1 hpx).1, ?_⟩
    rw [Loop.stride_setInner, (hsh r hr).2.2]
    exact adm_none
  · intro b hb px hpx
    obtain ⟨q, hq, hqx⟩ := hQ.cover b hb px hpx
    have hr : q ∈ R := hP.symm.subset hq
    obtain ⟨hs, hbi⟩ := hin q hr px hqx
    obtain ⟨i, hi, h1, h2, h3⟩ := (hres q hr hs).cover b (hbi b hb hpx) px hpx hqx
    refine ⟨q.setInner (restrictAll o q.inner q.dom), (hmem _).2 ⟨q, hr, ?_, rfl⟩, i, hi, h1, h2, h3⟩
    intro h
    rw [h] at hi
    simp at hi
  · intro t ht i hi
    obtain ⟨r, hr, hne, rfl⟩ := (hmem t).1 ht
    obtain ⟨b, hb, h1, h2, h3, h4⟩ := (hres r hr (hpt r hr hne)).sound i hi
    exact ⟨b, (hpt r hr hne).subset hb, h1, h2, fun px hpx => ((h4 px).1 hpx).2⟩
  · have hO' : R.Pairwise (fun r t => ∀ a, (if (restrictAll o r.inner r.dom).isEmpty then none
          else some (r.setInner (restrictAll o r.inner r.dom))) = some a → ∀ b,
        (if (restrictAll o t.inner t.dom).isEmpty then none
          else some (t.setInner (restrictAll o t.inner t.dom))) = some b →
        ∀ i ∈ a.inner, ∀ j ∈ b.inner, Before o mem Rel L s i j) := by
      refine List.Pairwise.imp_of_mem ?_ hO
      intro r t hr ht hrt a ha b hb i hi j hj p x y hx hy hxy e f he hf
      split at ha
      · exact absurd ha (by simp)
      rename_i hne
      split at hb
      · exact absurd hb (by simp)
      rename_i hne'
      obtain rfl := Option.some.inj ha
      obtain rfl := Option.some.inj hb
      have hne : restrictAll o r.inner r.dom ≠ [] := by simpa using hne
      have hne' : restrictAll o t.inner t.dom ≠ [] := by simpa using hne'
      obtain ⟨b1, hb1, _, d1, _, m1⟩ := (hres r hr (hpt r hr hne)).sound i hi
      obtain ⟨b2, hb2, _, d2, _, m2⟩ := (hres t ht (hpt t ht hne')).sound j hj
      have := hrt p x y ((m1 _).1 hx).1 ((m2 _).1 hy).1 hxy
      have k1 := (hB b1 ((hpt r hr hne).subset hb1)).2
      have k2 := (hB b2 ((hpt t ht hne').subset hb2)).2
      refine RL.value L s e f this.1 hc ?_ ?_ ?_
      · rw [at_length he, ← d1]; exact k1
      · rw [at_length hf, ← d2]; exact k2
      · rw [at_getD he (by omega), at_getD hf (by omega)]
        exact this.2
    exact List.pairwise_filterMap.2 hO'

end Verif.Gen
