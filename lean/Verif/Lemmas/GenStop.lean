import Verif.Lemmas.GenShape

/-!
# Generation with `-stop`

What `cloog_loop_generate` makes when generation stops at a level: every instance of a statement is
executed at the values of the iterators that are scanned, the loops go down to the level and not
further, and the statements that are cut off there are only guarded by the enclosing loop.
-/

namespace Verif.Gen

open Verif.Loop Verif.Props.Separate Verif.ScalarSort Verif.Props.ScalarSort

variable {D S C Par : Type} {o : DomOps D S C} {mem : D → Par × Pt → Prop} {ok : Nat → S → Par × Pt → Prop}

/-- The first `P` positions of a scattering with scalar positions `flags` hold `n` iterators, the last
of them in the last position; all positions behind the scattering are iterators. -/
structure AfterIter (flags : List Bool) (n P : Nat) : Prop where
  count : (flags.take P).count true + n = P
  none : n = 0 → P = 0
  last : 0 < n → flags[P - 1]? ≠ some true

/-- The level to stop is reached with `n` iterators. -/
def Reached (c : Ctx) (n : Nat) : Prop :=
  0 ≤ c.opt.stop ∧ ∃ P, AfterIter (isScal c.scaldims) n P ∧ c.opt.stop ≤ P

/-- With `n` iterators of the `m` of a statement the level to stop is reached for the first time, or
all iterators are scanned before it is reached. -/
def CutLen (reach : Nat → Prop) (n m : Nat) : Prop :=
  (∀ j, j < n → ¬ reach j) ∧ (n = m ∨ (n < m ∧ reach n))

theorem CutLen.unique {reach : Nat → Prop} {n n' m : Nat} (h : CutLen reach n m)
    (h' : CutLen reach n' m) : n = n' := by
  obtain ⟨a, b⟩ := h
  obtain ⟨a', b'⟩ := h'
  rcases Nat.lt_trichotomy n n' with hlt | heq | hlt
  · have := a' n hlt
    rcases b with rfl | ⟨_, hr⟩
    · rcases b' with rfl | ⟨h, _⟩ <;> omega
    · exact absurd hr this
  · exact heq
  · have := a n' hlt
    rcases b' with rfl | ⟨_, hr⟩
    · rcases b with rfl | ⟨h, _⟩ <;> omega
    · exact absurd hr this

theorem AfterIter.unique {flags : List Bool} {n P Q : Nat} (h : AfterIter flags n P)
    (h' : AfterIter flags n Q) : P = Q := by
  rcases Nat.eq_zero_or_pos n with h0 | h0
  · rw [h.none h0, h'.none h0]
  have key : ∀ P Q, AfterIter flags n P → AfterIter flags n Q → ¬ P < Q := by
    intro P Q h h' hlt
    have hl := h'.last h0
    have hc := count_take_succ flags (Q - 1)
    rw [show Q - 1 + 1 = Q by omega, if_neg hl] at hc
    have hmono : (flags.take (Q - 1)).count true ≤ (flags.take P).count true + (Q - 1 - P) := by
      have : flags.take (Q - 1) = flags.take P ++ (flags.drop P).take (Q - 1 - P) := by
        rw [← List.take_add]
        congr 1
        omega
      rw [this, List.count_append]
      have h1 := List.count_le_length (a := true) (l := (flags.drop P).take (Q - 1 - P))
      rw [List.length_take] at h1
      omega
    have := h.count
    have := h'.count
    omega
  have := key P Q h h'
  have := key Q P h' h
  omega

/-- The loop tree's leaf domain `d` is the domain `pd` of the enclosing loop, up to a stride (none
without `-strides`). -/
def Guard (mem : D → Par × Pt → Prop) (ok : Nat → S → Par × Pt → Prop) (strides : Bool) (L : Nat)
    (pd d : D) : Prop :=
  ∃ st : Option S, (strides = false → st = none) ∧ ∀ px, mem pd px → Adm ok L st px → mem d px

/-- A loop of a tree made with `-stop`: at its level, with the domain `pd` of the enclosing loop; `K`
are the blocks and dimensions of the given statements. -/
inductive Cutted (o : DomOps D S C) (mem : D → Par × Pt → Prop) (ok : Nat → S → Par × Pt → Prop)
    (strides : Bool) (reach : Nat → Prop) (K : List (Option Block × Nat)) : Nat → D → Loop D S → Prop
  | node {L pd d ot st inner} : o.dim d = L → (∀ j, j < L → ¬ reach j) →
      (∀ i ∈ inner, Cutted o mem ok strides reach K (L + 1) d i) →
      Cutted o mem ok strides reach K L pd (.mk d ot st none inner)
  | leaf {L pd d ot st b m} : o.dim d + 1 = L → (some b, m) ∈ K → (∀ j, j + 1 < L → ¬ reach j) →
      (L = m + 1 ∨ (L < m + 1 ∧ reach (L - 1) ∧ Guard mem ok strides (L - 1) pd d)) →
      Cutted o mem ok strides reach K L pd (.mk d ot st (some b) [])

variable {st : Bool} {reach : Nat → Prop} {K : List (Option Block × Nat)}

theorem Guard.mono {L : Nat} {pd pd' d : D} (h : Guard mem ok st L pd d)
    (hs : ∀ px, mem pd' px → mem pd px) : Guard mem ok st L pd' d := by
  obtain ⟨s, h1, h2⟩ := h
  exact ⟨s, h1, fun px hp => h2 px (hs px hp)⟩

theorem Cutted.mono {L : Nat} {pd pd' : D} {i : Loop D S} (h : Cutted o mem ok st reach K L pd i)
    (hs : ∀ px, mem pd' px → mem pd px) : Cutted o mem ok st reach K L pd' i := by
  cases h with
  | node h1 h2 h3 => exact .node h1 h2 h3
  | leaf h1 h2 h3 h4 =>
    refine .leaf h1 h2 h3 ?_
    rcases h4 with h | ⟨h, hr, hg⟩
    · exact Or.inl h
    · exact Or.inr ⟨h, hr, hg.mono hs⟩

theorem Cutted.top {L : Nat} {pd : D} {i : Loop D S} (h : Cutted o mem ok st reach K L pd i) :
    Top o L i := by
  cases h with
  | node h1 _ _ => exact Or.inl ⟨h1, rfl⟩
  | leaf h1 _ _ _ => exact Or.inr ⟨by simp, rfl, h1⟩

theorem Cutted.low {L : Nat} {pd : D} {i : Loop D S} (h : Cutted o mem ok st reach K L pd i) :
    L ≤ o.dim i.dom + 1 := by
  rcases h.top with h | ⟨_, _, h⟩
  · have := h.1; omega
  · omega

/-- Every instance of the statements `B` is executed at the values of the scanned iterators. -/
def Cover (o : DomOps D S C) (mem : D → Par × Pt → Prop) (ok : Nat → S → Par × Pt → Prop)
    (reach : Nat → Prop) (L : Nat) (B T : List (Loop D S)) : Prop :=
  ∀ b ∈ B, ∀ u, b.block = some u → ∀ p x y, Agree L x y → mem b.dom (p, y) →
    ∃ n, CutLen reach n (o.dim b.dom) ∧ hasLoops (sem o mem ok p) L x T ⟨u, argsOf n y⟩

theorem hasLoops_sub {m : Sem D S} {L : Nat} {x : Pt} {e : Inst} {A B : List (Loop D S)}
    (hs : ∀ a ∈ A, a ∈ B) (h : hasLoops m L x A e) : hasLoops m L x B e := by
  obtain ⟨a, ha, h⟩ := hasLoops_iff.1 h
  exact hasLoops_iff.2 ⟨a, hs a ha, h⟩

theorem Cover.append {L : Nat} {A B T U : List (Loop D S)} (h : Cover o mem ok reach L A T)
    (h' : Cover o mem ok reach L B U) : Cover o mem ok reach L (A ++ B) (T ++ U) := by
  intro b hb u hu p x y hy hm
  rcases List.mem_append.1 hb with hb | hb
  · obtain ⟨n, h1, h2⟩ := h b hb u hu p x y hy hm
    exact ⟨n, h1, hasLoops_sub (by simp +contextual) h2⟩
  · obtain ⟨n, h1, h2⟩ := h' b hb u hu p x y hy hm
    exact ⟨n, h1, hasLoops_sub (by simp +contextual) h2⟩

theorem Cover.nil {L : Nat} {T : List (Loop D S)} : Cover o mem ok reach L [] T := by
  intro b hb
  simp at hb

/-- A statement without iterators from level `L` on. -/
theorem leaf_has (G : GenLaws o mem) {L : Nat} {d : D} {ot : Bool} {s : Option S} {u : Block} {p : Par}
    {x y : Pt} (hd : o.dim d + 1 = L) (hxy : Agree L x y) (hm : mem d (p, y)) :
    hasLoop (sem o mem ok p) L x (.mk d ot s (some u) []) ⟨u, argsOf (o.dim d) y⟩ := by
  rw [hasLoop_mk]
  have hxy' : ∀ i, i < o.dim d → x i = y i := fun i hi => hxy i (by omega)
  refine ⟨x, ?_, Or.inl ⟨rfl, ?_⟩⟩
  · unfold Visits
    rw [if_neg (by simp only [sem]; omega)]
    exact ⟨rfl, (G.congr_iff hxy').2 hm⟩
  · exact argsOf_congr (fun i hi => (hxy' i hi).symm)

theorem leaf_cover (G : GenLaws o mem) {L : Nat} {l : Loop D S} (hd : o.dim l.dom + 1 = L)
    (hi : l.inner = []) (hr : ∀ j, j + 1 < L → ¬ reach j) : Cover o mem ok reach L [l] [l] := by
  intro b hb u hu p x y hxy hm
  rw [List.mem_singleton] at hb
  subst hb
  refine ⟨_, ⟨fun j hj => hr j (by omega), Or.inl rfl⟩, hasLoops_iff.2 ⟨b, by simp, ?_⟩⟩
  obtain ⟨d, ot, s, bl, inner⟩ := b
  simp only [Loop.inner_mk, Loop.block_mk, Loop.dom_mk] at hi hu hd hm ⊢
  subst hi hu
  exact leaf_has G hd hxy hm

theorem flatMapM_fwd {α β : Type} {f : α → Option (List β)} {l : List α} {r : List β}
    (h : flatMapM f l = some r) {a : α} (ha : a ∈ l) : ∃ bs, f a = some bs ∧ ∀ b ∈ bs, b ∈ r := by
  obtain ⟨gs, rfl, h2⟩ := flatMapM_spec h
  clear h
  induction h2 with
  | nil => simp at ha
  | cons h1 _ ih =>
    rcases List.mem_cons.1 ha with rfl | ha
    · exact ⟨_, h1, by simp +contextual⟩
    · obtain ⟨bs, h, hb⟩ := ih ha
      exact ⟨bs, h, fun b hbb => by rw [List.flatten_cons, List.mem_append]; exact Or.inr (hb b hbb)⟩

/-! ## The inner loops -/

/-- What is shown of the loops made for the statements `B` at level `L` inside a loop with domain
`pd`. -/
structure Out (o : DomOps D S C) (mem : D → Par × Pt → Prop) (ok : Nat → S → Par × Pt → Prop)
    (st : Bool) (reach : Nat → Prop) (K : List (Option Block × Nat)) (L : Nat) (pd : D)
    (B T : List (Loop D S)) : Prop where
  cover : Cover o mem ok reach L B T
  cut : ∀ t ∈ T, Cutted o mem ok st reach K L pd t

theorem Out.nil {L : Nat} {pd : D} : Out o mem ok st reach K L pd [] [] := ⟨Cover.nil, by simp⟩

theorem Out.append {L : Nat} {pd : D} {A B T U : List (Loop D S)} (h : Out o mem ok st reach K L pd A T)
    (h' : Out o mem ok st reach K L pd B U) : Out o mem ok st reach K L pd (A ++ B) (T ++ U) :=
  ⟨h.cover.append h'.cover, fun t ht => (List.mem_append.1 ht).elim (h.cut t) (h'.cut t)⟩

theorem Out.leaf (G : GenLaws o mem) {L : Nat} {pd : D} {l : Loop D S} (hd : o.dim l.dom + 1 = L)
    (hi : l.inner = []) (hb : l.block ≠ none) (hK : (l.block, o.dim l.dom) ∈ K)
    (hr : ∀ j, j + 1 < L → ¬ reach j) : Out o mem ok st reach K L pd [l] [l] := by
  refine ⟨leaf_cover G hd hi hr, fun t ht => ?_⟩
  rw [List.mem_singleton] at ht
  subst ht
  obtain ⟨d, ot, s, bl, inner⟩ := t
  simp only [Loop.inner_mk, Loop.block_mk, Loop.dom_mk] at hi hd hb hK
  subst hi
  cases bl with
  | none => exact absurd rfl hb
  | some b => exact .leaf hd hK hr (Or.inl hd.symm)

theorem recurseInner_out (G : GenLaws o mem) {scaldims : List Nat} {L s : Nat}
    (hp : Pos (isScal scaldims) L s) (hr : ∀ j, j + 1 < L → ¬ reach j) {pd d : D}
    {gen : List (Loop D S) → Option (List (Loop D S))}
    (hgen : ∀ B T, PreS o scaldims L s B → (∀ k ∈ keys o B, k ∈ K) →
      (∀ b ∈ B, ∀ px, mem b.dom px → mem d px) → gen B = some T → Out o mem ok st reach K L pd B T) :
    ∀ (n : Nat) (ls T : List (Loop D S)), (∀ l ∈ ls, l.inner = [] ∧ L ≤ o.dim l.dom + 1) →
      KOK (isScal scaldims) (fun _ _ => True) (keys o ls) → (∀ k ∈ keys o ls, k ∈ K) →
      (∀ b ∈ ls, ∀ px, mem b.dom px → mem d px) →
      recurseInner o gen L s scaldims.length n ls = some T → Out o mem ok st reach K L pd ls T := by
  intro n
  induction n with
  | zero =>
    intro ls T _ _ _ _ h
    match ls, h with
    | [], h =>
      simp only [recurseInner] at h
      obtain rfl := Option.some.inj h
      exact Out.nil
  | succ n ih =>
    intro ls T hin hK hKK hd h
    match ls, h with
    | [], h =>
      simp only [recurseInner] at h
      obtain rfl := Option.some.inj h
      exact Out.nil
    | l :: ls, h =>
      rw [recurseInner] at h
      split at h
      · obtain ⟨sp1, sp2, _⟩ := span_more o L s scaldims.length (l :: ls)
        generalize (spanMore o L s scaldims.length (l :: ls)).1 = A at h sp1 sp2
        generalize (spanMore o L s scaldims.length (l :: ls)).2 = B at h sp1
        split at h
        · exact absurd h (by simp)
        · rename_i r hr
          split at h
          · exact absurd h (by simp)
          · rename_i rs hrs
            obtain rfl := Option.some.inj h
            rw [← sp1] at hK hin hKK hd ⊢
            rw [keys_append] at hKK
            have hKA := hK.sublist (keys_sublist (List.sublist_append_left A B))
            have hKB := hK.sublist (keys_sublist (List.sublist_append_right A B))
            refine Out.append ?_ ?_
            · exact hgen A r ⟨fun b hb => (hin b (by simp [hb])).1, sp2,
                fun b hb => (hin b (by simp [hb])).2, hKA, hp⟩ (fun k hk => hKK k (by simp [hk]))
                (fun b hb => hd b (by simp [hb])) hr
            · exact ih B rs (fun b hb => hin b (by simp [hb])) hKB (fun k hk => hKK k (by simp [hk]))
                (fun b hb => hd b (by simp [hb])) hrs
      · rename_i hm
        split at h
        · exact absurd h (by simp)
        · rename_i rs hrs
          obtain rfl := Option.some.inj h
          have hKB := hK.sublist (keys_sublist (List.sublist_cons_self l ls))
          have hl := hin l (by simp)
          have hb := hK.block (l.block, o.dim l.dom) (by simp [keys])
          unfold more at hm
          simp only [Bool.or_eq_true, decide_eq_true_eq, not_or] at hm
          rw [← List.singleton_append (l := ls), ← List.singleton_append (l := rs)]
          refine Out.append (Out.leaf G (by omega) hl.1 hb (hKK _ (by simp [keys])) hr) ?_
          exact ih ls rs (fun b hb => hin b (by simp [hb])) hKB (fun k hk => hKK k (by
            simp only [keys, List.map_cons, List.mem_cons]
            exact Or.inr hk)) (fun b hb => hd b (by simp [hb])) hrs

/-! ## One level -/

/-- A loop of the level. -/
structure CNode (o : DomOps D S C) (mem : D → Par × Pt → Prop) (ok : Nat → S → Par × Pt → Prop)
    (st : Bool) (reach : Nat → Prop) (K : List (Option Block × Nat)) (L : Nat) (t : Loop D S) :
    Prop where
  shape : Nd o L t
  above : ∀ j, j < L → ¬ reach j
  inner : ∀ i ∈ t.inner, Cutted o mem ok st reach K (L + 1) t.dom i

theorem CNode.cutted {L : Nat} {pd : D} {t : Loop D S} (h : CNode o mem ok st reach K L t) :
    Cutted o mem ok st reach K L pd t := by
  obtain ⟨d, ot, s, b, inner⟩ := t
  obtain ⟨⟨h1, h2⟩, h3, h4⟩ := h
  simp only [Loop.dom_mk, Loop.block_mk, Loop.inner_mk] at h1 h2 h4
  subst h2
  exact .node h1 h3 h4

/-- What is assumed about strides here: detection as in `StrideLaws`, and adding the stride as a
constraint (`cloog_domain_add_stride_constraint`, `source/isl/domain.c:1117-1132`) keeps the points that
it admits. -/
structure AddStrideLaws (o : DomOps D S C) (mem : D → Par × Pt → Prop)
    (ok : Nat → S → Par × Pt → Prop) : Prop where
  dim : ∀ d s, o.dim (o.addStride d s) = o.dim d
  mem : ∀ d s px, 0 < o.dim d → mem d px → ok (o.dim d) s px → mem (o.addStride d s) px

theorem recurseConst_out (G : GenLaws o mem) (A : AddStrideLaws o mem ok) {c : Ctx} {L s : Nat}
    {Rel : Nat → Nat → Inst → Inst → Prop}
    (hp : Pos (isScal c.scaldims) L s) (hc : levelIsConstant L s (isScal c.scaldims) = false)
    (hr : ∀ j, j < L → ¬ reach j)
    {gen : List (Loop D S) → D → Nat → Nat → Option (List (Loop D S))}
    (hgen : ∀ B d pd T, PreS o c.scaldims (L + 1) s B → (∀ k ∈ keys o B, k ∈ K) → o.dim d = L →
      Guard mem ok c.opt.strides L pd d → (∀ b ∈ B, ∀ px, mem b.dom px → mem d px) →
      gen B d (L + 1) s = some T → Out o mem ok c.opt.strides reach K (L + 1) pd B T)
    {B R T : List (Loop D S)} (hK : KOK (isScal c.scaldims) (fun _ _ => True) (keys o B))
    (hKK : ∀ k ∈ keys o B, k ∈ K) (hS : Stage o mem ok Rel L s B R)
    (hstr : ∀ r ∈ R, (c.opt.strides = false → r.stride = none) ∧ (L = 0 → r.stride = none))
    (h : flatMapM (loopRecurseConst o c gen L s) R = some T) :
    Cover o mem ok reach L B T ∧ ∀ t ∈ T, CNode o mem ok c.opt.strides reach K L t := by
  have one : ∀ r ∈ R, ∀ g, loopRecurseConst o c gen L s r = some g →
      ∃ t, g = [t] ∧ t.dom = r.dom ∧ t.stride = r.stride ∧
        CNode o mem ok c.opt.strides reach K L t ∧ Cover o mem ok reach (L + 1) r.inner t.inner := by
    intro r hrR g hg
    have hsh := hS.shape r hrR
    have hbase := hS.base r hrR
    have hinto := hS.into r hrR
    have hkr := hS.keys r hrR
    have hst := hstr r hrR
    unfold loopRecurseConst at hg
    rw [Option.map_eq_some_iff] at hg
    obtain ⟨t, ht, rfl⟩ := hg
    obtain ⟨d, ot, sd, b, inner⟩ := r
    obtain ⟨s1, s2⟩ := hsh
    simp only [Loop.dom_mk, Loop.block_mk, Loop.stride_mk, Loop.inner_mk] at s1 s2 hkr hbase hinto hst
    subst s2
    have hot : ∃ ot', (if 0 < L ∧ c.opt.otl = true then loopOtl o L (.mk d ot sd none inner)
        else Loop.mk d ot sd none inner) = .mk d ot' sd none inner := by
      split
      · exact ⟨_, rfl⟩
      · exact ⟨_, rfl⟩
    obtain ⟨ot', hot⟩ := hot
    unfold recurseBelow at ht
    rw [hot] at ht
    dsimp only [Loop.stride_mk, Loop.inner_mk, Loop.dom_mk] at ht
    have fin : ∀ dd into, o.dim dd = L → Guard mem ok c.opt.strides L d dd →
        (∀ b ∈ inner, ∀ px, mem b.dom px → mem dd px) →
        recurseInner o (fun ls => gen ls dd (L + 1) s) (L + 1) s
          c.scaldims.length inner.length inner = some into →
        ∃ t', [(Loop.mk d ot' sd none into)] = [t'] ∧ t'.dom = d ∧ t'.stride = sd ∧
          CNode o mem ok c.opt.strides reach K L t' ∧ Cover o mem ok reach (L + 1) inner t'.inner := by
      intro dd into hdd hg hsub hin
      have := recurseInner_out (st := c.opt.strides) (K := K) (pd := d) (d := dd) G (pos_next hp hc)
        (fun j hj => hr j (by omega))
        (fun B' T' h1 h2 h3 h4 => hgen B' dd d T' h1 h2 hdd hg h3 h4) _ _ _
        (fun l hl => ⟨(hbase l hl).1, by have := (hbase l hl).2; omega⟩) (hK.sublist hkr)
        (fun k hk => hKK k (hkr.subset hk)) hsub hin
      exact ⟨_, rfl, rfl, rfl, ⟨⟨s1, rfl⟩, hr, this.cut⟩, this.cover⟩
    cases sd with
    | none =>
      split at ht
      · exact absurd ht (by simp)
      · rename_i into hin
        obtain rfl := Option.some.inj ht
        exact fin d into s1 ⟨none, fun _ => rfl, fun _ h _ => h⟩ (fun i hi px h => (hinto i hi px h).1)
          hin
    | some sd =>
      have hL : 0 < L := by
        rcases Nat.eq_zero_or_pos L with h | h
        · exact absurd (hst.2 h) (by simp)
        · exact h
      have hadd : ∀ px, mem d px → Adm ok L (some sd) px → mem (o.addStride d sd) px := by
        intro px h1 h2
        refine A.mem d sd px (by omega) h1 ?_
        rw [s1]
        exact h2 sd rfl px.2 (Agree.refl _ _)
      split at ht
      · exact absurd ht (by simp)
      · rename_i into hin
        obtain rfl := Option.some.inj ht
        exact fin _ into ((A.dim d sd).trans s1) ⟨some sd, fun h => hst.1 h, hadd⟩
          (fun i hi px h => hadd px (hinto i hi px h).1 (hinto i hi px h).2) hin
  refine ⟨?_, ?_⟩
  · intro b hb u hu p x y hxy hm
    obtain ⟨r, hrR, i, hi, h1, h2, h3⟩ := hS.cover b hb _ hm
    obtain ⟨g, hg, hgT⟩ := flatMapM_fwd h hrR
    obtain ⟨t, rfl, t1, t2, t3, t4⟩ := one r hrR g hg
    have hzd := (hS.into r hrR i hi _ h3)
    have fin : ∀ x', ((0 < L ∧ ∃ v, x' = setAt x L v) ∨ (L = 0 ∧ x' = x)) → Agree (L + 1) x' y →
        ∃ n, CutLen reach n (o.dim b.dom) ∧ hasLoops (sem o mem ok p) L x T ⟨u, argsOf n y⟩ := by
      intro x' hx' ha
      obtain ⟨n, n1, n2⟩ := t4 i hi u (by rw [h1]; exact hu) p x' y ha h3
      refine ⟨n, by rw [← h2]; exact n1, hasLoops_iff.2 ⟨t, hgT t (by simp), ?_⟩⟩
      rw [hasLoop_nd t3.shape]
      refine ⟨x', hx', ?_, ?_, n2⟩
      · rw [t1]
        exact (agree_dim G (Nat.le_of_eq (hS.shape r hrR).1) ha).2 hzd.1
      · rw [t2]
        exact fun _ s hs => hzd.2 s hs _ ha.symm
    rcases Nat.eq_zero_or_pos L with h0 | h0
    · exact fin x (Or.inr ⟨h0, rfl⟩) (fun i hi => by omega)
    · refine fin (setAt x L (y (L - 1))) (Or.inl ⟨h0, _, rfl⟩) ?_
      refine agree_succ ((agree_setAt x L _ h0).symm.trans hxy) h0 ?_
      rw [setAt_same]
  · intro t ht
    obtain ⟨r, hrR, g, hg, htg⟩ := flatMapM_mem h ht
    obtain ⟨t', rfl, _, _, t3, _⟩ := one r hrR g hg
    rw [List.mem_singleton.1 htg]
    exact t3

/-- Passing from `T` to `U` keeps what is executed. -/
theorem Cover.trans {L : Nat} {B T U : List (Loop D S)} (h : Cover o mem ok reach L B T)
    (hTU : ∀ p x e, hasLoops (sem o mem ok p) L x T e → hasLoops (sem o mem ok p) L x U e) :
    Cover o mem ok reach L B U := by
  intro b hb u hu p x y hxy hm
  obtain ⟨n, h1, h2⟩ := h b hb u hu p x y hxy hm
  exact ⟨n, h1, hTU _ _ _ h2⟩

theorem propagate_out (G : GenLaws o mem) {L : Nat} {t : Loop D S}
    (ht : CNode o mem ok st reach K L t) :
    CNode o mem ok st reach K L (propagateOne o t) ∧ (propagateOne o t).stride = t.stride ∧
    ∀ p x e, hasLoop (sem o mem ok p) L x t e → hasLoop (sem o mem ok p) L x (propagateOne o t) e := by
  unfold propagateOne
  split
  · rename_i i hi
    split
    · have htop := (ht.inner i (by rw [hi]; simp)).top
      have hL : L ≤ o.dim i.dom := by
        have := (ht.inner i (by rw [hi]; simp)).low
        omega
      have hd : o.dim t.dom = L := ht.shape.1
      have hpd := G.dim_project i.dom (o.dim t.dom) (by rw [hd]; exact hL)
      have hnd : o.dim (o.inter (o.project i.dom (o.dim t.dom)) t.dom) = L := by
        rw [G.dim_inter _ _ hpd, hd]
      have hpj : ∀ p y e, hasLoops (sem o mem ok p) (L + 1) y t.inner e →
          mem (o.project i.dom (o.dim t.dom)) (p, y) := by
        intro p y e he
        rw [hi, hasLoops, hasLoops, or_false] at he
        have key : ∃ z, (∀ k, k < L → y k = z k) ∧ mem i.dom (p, z) := by
          rcases htop with h | ⟨_, h1, h2⟩
          · rw [hasLoop_nd h] at he
            obtain ⟨z, hz, hm, _⟩ := he
            rcases hz with ⟨_, v, rfl⟩ | ⟨h0, _⟩
            · exact ⟨_, fun k hk => by rw [setAt_other (by omega)], hm⟩
            · omega
          · obtain ⟨d, ot, st, b, inner⟩ := i
            rw [hasLoop_mk] at he
            obtain ⟨z, hv, _⟩ := he
            unfold Visits at hv
            simp only [Loop.dom_mk] at h2
            rw [if_neg (by simp only [sem]; omega)] at hv
            exact ⟨z, fun k _ => by rw [hv.1], hv.2⟩
        obtain ⟨z, hz, hm⟩ := key
        refine (G.congr_iff (fun k hk => ?_)).2 (G.project i.dom _ _ (by rw [hd]; exact hL) hm)
        exact hz k (by omega)
      have hshape : Nd o L (t.setDom (o.inter (o.project i.dom (o.dim t.dom)) t.dom)) :=
        ⟨hnd, ht.shape.2⟩
      refine ⟨⟨hshape, ht.above, ?_⟩, rfl, ?_⟩
      · intro j hj
        refine (ht.inner j hj).mono (fun px h => ?_)
        rw [Loop.dom_setDom, G.inter] at h
        exact h.2
      · intro p x e h
        rw [hasLoop_nd ht.shape] at h
        rw [hasLoop_nd hshape]
        obtain ⟨y, hy, hm, hs, he⟩ := h
        refine ⟨y, hy, ?_, hs, he⟩
        rw [Loop.dom_setDom, G.inter]
        exact ⟨hpj p y e he, hm⟩
    · exact ⟨ht, rfl, fun _ _ _ h => h⟩
  · exact ⟨ht, rfl, fun _ _ _ h => h⟩

theorem backtrack_out (G : GenLaws o mem) {L : Nat} (h0 : 0 < L) {fuel : Nat} {t : Loop D S}
    {g : List (Loop D S)} (ht : CNode o mem ok st reach K L t) (h : backtrackLoop o fuel L t = some g) :
    (∀ q ∈ g, CNode o mem ok st reach K L q ∧ q.stride = none) ∧
    ∀ p x e, hasLoop (sem o mem ok p) L x t e → hasLoops (sem o mem ok p) L x g e := by
  unfold backtrackLoop at h
  by_cases hemp : t.inner.isEmpty = true
  · rw [if_pos hemp] at h
    obtain rfl := Option.some.inj h
    rw [List.isEmpty_iff] at hemp
    refine ⟨by simp, fun p x e he => ?_⟩
    rw [hasLoop_nd ht.shape, hemp] at he
    simp [hasLoops] at he
  rw [if_neg hemp] at h
  split at h
  · exact absurd h (by simp)
  rename_i sp hsp
  have htop : ∀ i ∈ t.inner, Top o (L + 1) i := fun i hi => (ht.inner i hi).top
  have hin : ∀ i ∈ t.inner, Sh o L (backtrackOne o L t.dom i) := by
    intro i hi
    unfold backtrackOne
    cases hb : i.block with
    | some b => exact ⟨ht.shape.1, rfl, rfl⟩
    | none =>
      rcases htop i hi with hs | ⟨hs, _⟩
      · exact ⟨(project_dom G (by rw [hs.1]; omega)).1, rfl, rfl⟩
      · exact absurd hb hs
  have hshape : ∀ q ∈ sp, Sh o L q := by
    refine separate_shape G ?_ hsp
    intro l hl
    obtain ⟨i, hi, rfl⟩ := List.mem_map.1 hl
    exact hin i hi
  obtain ⟨_, c2, c3, _, c5⟩ := C17_separate G.toSetLaws fuel _ _ hsp
  have hP := (sort_spec G (fun q hq => (hshape q hq).1) c2 h).1
  have hq : ∀ q ∈ g, ∀ px, mem q.dom px → ∃ ls : List (Loop D S), ls.Sublist t.inner ∧
      q.inner = ls.map star ∧
      ∀ i ∈ t.inner, i ∈ ls ↔ mem (backtrackOne o L t.dom i).dom px := by
    classical
    intro q hq px hpx
    refine ⟨t.inner.filter (fun i => decide (mem (backtrackOne o L t.dom i).dom px)),
      List.filter_sublist, ?_, fun i hi => ?_⟩
    · rw [c5 q (hP.subset hq) px hpx, flow_backtrack]
    · rw [List.mem_filter]
      simp [hi]
  -- the inner loops of the pieces come from those of the loop
  have hfrom : ∀ q ∈ sp, ∀ j ∈ q.inner, ∃ i ∈ t.inner, j = star i := by
    refine separate_inner G ?_ hsp
    intro l hl j hj
    obtain ⟨i, hi, rfl⟩ := List.mem_map.1 hl
    refine ⟨i, hi, ?_⟩
    have : (backtrackOne o L t.dom i).inner = [star i] := by
      unfold backtrackOne star
      cases i.block <;> rfl
    rw [this, List.mem_singleton] at hj
    exact hj
  refine ⟨?_, ?_⟩
  · intro q hqg
    have hsh := hshape q (hP.subset hqg)
    refine ⟨⟨⟨hsh.1, hsh.2.1⟩, ht.above, ?_⟩, hsh.2.2⟩
    intro j hj
    obtain ⟨i, hi, rfl⟩ := hfrom q (hP.subset hqg) j hj
    have hc := ht.inner i hi
    cases hc with
    | node h1 h2 h3 => exact .node h1 h2 h3
    | @leaf _ _ d ot sd b m h1 h2 h3 h4 =>
      refine .leaf h1 h2 h3 ?_
      rcases h4 with h | ⟨h, hr, hg⟩
      · exact Or.inl h
      · refine Or.inr ⟨h, hr, hg.mono (fun px hpx => ?_)⟩
        obtain ⟨ls, l1, l2, l3⟩ := hq q hqg px hpx
        rw [l2] at hj
        obtain ⟨i', hi', he⟩ := List.mem_map.1 hj
        have hm := (l3 i' (l1.subset hi')).1 hi'
        -- a statement is kept on the whole domain
        have hb : ∃ b', i'.block = some b' := by
          cases hbb : i'.block with
          | some b' => exact ⟨b', rfl⟩
          | none =>
            unfold star at he
            rw [hbb] at he
            simp only [Loop.block_mk] at he
            rw [he] at hbb
            simp at hbb
        obtain ⟨b', hb'⟩ := hb
        unfold backtrackOne at hm
        rw [hb'] at hm
        exact hm
  · intro p x e he
    rw [hasLoop_nd ht.shape] at he
    obtain ⟨y, hy, hm, _, he⟩ := he
    obtain ⟨i, hi, hei⟩ := hasLoops_iff.1 he
    have hbt : mem (backtrackOne o L t.dom i).dom (p, y) := by
      unfold backtrackOne
      cases hb : i.block with
      | some b => exact hm
      | none =>
        rcases htop i hi with hs | ⟨hs, _⟩
        · rw [hasLoop_nd hs] at hei
          obtain ⟨z, hz, hmz, _⟩ := hei
          rcases hz with ⟨_, v, rfl⟩ | ⟨hz, _⟩
          · have hpj := project_dom (L := L) G (b := i) (by rw [hs.1]; omega)
            refine (G.congr_iff (fun k hk => ?_)).2 (hpj.2 _ hmz)
            have hk' : k < L := by
              have := hpj.1
              simp only [Loop.project, Loop.dom_mk] at hk this
              omega
            rw [setAt_other (by omega)]
          · omega
        · exact absurd hb hs
    obtain ⟨q, hqs, hqm⟩ := (c3 (p, y)).2 ⟨_, List.mem_map_of_mem hi, hbt⟩
    have hqg : q ∈ g := hP.symm.subset hqs
    obtain ⟨ls, l1, l2, l3⟩ := hq q hqg _ hqm
    refine hasLoops_iff.2 ⟨q, hqg, ?_⟩
    rw [hasLoop_sh (hshape q hqs)]
    refine ⟨y, hy, hqm, ?_⟩
    rw [l2, star_hasL (fun i hi => htop i (l1.subset hi))]
    exact hasLoops_iff.2 ⟨i, (l3 i hi).2 hbt, hei⟩

theorem combineFrom_out (G : GenLaws o mem) {L : Nat} : ∀ (ls : List (Loop D S)) (a : Loop D S),
    (∀ t ∈ a :: ls, CNode o mem ok st reach K L t) → SameStrides o a.dom a.stride ls →
    (∀ m ∈ combineFrom o a ls, CNode o mem ok st reach K L m) ∧
    ∀ p x e, hasLoops (sem o mem ok p) L x (a :: ls) e →
      hasLoops (sem o mem ok p) L x (combineFrom o a ls) e
  | [], a, ha, _ => by
    rw [combineFrom]
    exact ⟨ha, fun _ _ _ h => h⟩
  | b :: ls, a, hl, hss => by
    rw [combineFrom]
    rw [SameStrides] at hss
    have ha := hl a (by simp)
    have hb := hl b (by simp)
    split
    · rename_i he
      rw [if_pos he] at hss
      have heq := G.lazyEqual _ _ he
      have hn : CNode o mem ok st reach K L (a.setInner (a.inner ++ b.inner)) := by
        refine ⟨ha.shape, ha.above, ?_⟩
        intro i hi
        rw [Loop.inner_setInner, List.mem_append] at hi
        rcases hi with hi | hi
        · exact ha.inner i hi
        · exact (hb.inner i hi).mono (fun px h => (heq px).1 h)
      obtain ⟨r1, r2⟩ := combineFrom_out G ls (a.setInner (a.inner ++ b.inner)) (by
          intro t ht
          rcases List.mem_cons.1 ht with rfl | ht
          · exact hn
          · exact hl t (by simp [ht])) hss.2
      refine ⟨r1, fun p x e h => r2 p x e ?_⟩
      rw [hasLoops, hasLoops, ← or_assoc] at h
      rw [hasLoops]
      refine h.imp_left (fun h => ?_)
      rw [hasLoop_nd hn.shape, Loop.dom_setInner, Loop.inner_setInner, Loop.stride_setInner]
      rcases h with h | h
      · rw [hasLoop_nd ha.shape] at h
        obtain ⟨y, hy, hm, hs, h⟩ := h
        exact ⟨y, hy, hm, hs, hasLoops_sub (by simp +contextual) h⟩
      · rw [hasLoop_nd hb.shape] at h
        obtain ⟨y, hy, hm, hs, h⟩ := h
        refine ⟨y, hy, (heq _).2 hm, ?_, hasLoops_sub (by simp +contextual) h⟩
        intro hL s hs'
        rcases hss.1 with h' | h'
        · rw [h'] at hs'
          exact absurd hs' (by simp)
        · rw [h'] at hs'
          exact hs hL s hs'
    · rename_i he
      rw [if_neg he] at hss
      obtain ⟨r1, r2⟩ := combineFrom_out G ls b (fun t ht => hl t (by simp [ht])) hss
      refine ⟨?_, fun p x e h => ?_⟩
      · intro m hm
        rcases List.mem_cons.1 hm with rfl | hm
        · exact ha
        · exact r1 m hm
      · rw [hasLoops] at h ⊢
        exact h.imp_right (r2 p x e)

theorem combine_out (G : GenLaws o mem) {L : Nat} {T : List (Loop D S)}
    (hT : ∀ t ∈ T, CNode o mem ok st reach K L t) (hs : SameStridesL o T) :
    (∀ m ∈ combine o T, CNode o mem ok st reach K L m) ∧
    ∀ p x e, hasLoops (sem o mem ok p) L x T e → hasLoops (sem o mem ok p) L x (combine o T) e := by
  cases T with
  | nil => exact ⟨by simp [combine], fun _ _ _ h => by simpa [combine] using h⟩
  | cons a ls => exact combineFrom_out G ls a hT hs

/-- The options with `-stop`: `-f` and `-first-unroll` are not zero, no `-l`. -/
structure OptStop (opt : Options) : Prop extends OptS opt where
  unroll : opt.firstUnroll ≠ 0

theorem recurseConst_plain {c : Ctx} {L s : Nat}
    {gen : List (Loop D S) → D → Nat → Nat → Option (List (Loop D S))} {R T : List (Loop D S)}
    (hR : ∀ r ∈ R, r.stride = none) (h : flatMapM (loopRecurseConst o c gen L s) R = some T) :
    ∀ t ∈ T, t.stride = none := by
  intro t ht
  obtain ⟨r, hr, g, hg, htg⟩ := flatMapM_mem h ht
  unfold loopRecurseConst at hg
  rw [Option.map_eq_some_iff] at hg
  obtain ⟨u, hu, rfl⟩ := hg
  rw [List.mem_singleton.1 htg, recurseBelow_stride hu]
  exact hR r hr

theorem generateGeneral_out (G : GenLaws o mem) (A : AddStrideLaws o mem ok) {c : Ctx}
    (W : WFScal c.scaldims) (hopt : OptStop c.opt) (hns : c.opt.strides = true → StrideLaws o mem ok)
    {L s : Nat}
    (hp : Pos (isScal c.scaldims) L s) (hc : levelIsConstant L s (isScal c.scaldims) = false)
    (hr : ∀ j, j < L → ¬ reach j)
    {gen : List (Loop D S) → D → Nat → Nat → Option (List (Loop D S))}
    (hgen : ∀ B d pd T, PreS o c.scaldims (L + 1) s B → (∀ k ∈ keys o B, k ∈ K) → o.dim d = L →
      Guard mem ok c.opt.strides L pd d → (∀ b ∈ B, ∀ px, mem b.dom px → mem d px) →
      gen B d (L + 1) s = some T → Out o mem ok c.opt.strides reach K (L + 1) pd B T)
    {fuel : Nat} {B T : List (Loop D S)} (hB : PreS o c.scaldims L s B) (hKK : ∀ k ∈ keys o B, k ∈ K)
    (h : generateGeneral o fuel c gen L s (projectAll o B L) = some T) :
    Cover o mem ok reach L B T ∧ ∀ t ∈ T, CNode o mem ok c.opt.strides reach K L t ∧
      (c.opt.strides = false → t.stride = none) := by
  have h0s : L = 0 → s = 0 := by
    rintro rfl
    rcases hp with ⟨_, h⟩ | ⟨h, _⟩
    · exact h
    · omega
  have hdim : ∀ b ∈ B, L ≤ o.dim b.dom := fun b hb =>
    more_dim hp hc (hB.keys.dims (b.block, o.dim b.dom) (List.mem_map_of_mem hb)) (hB.more b hb)
  unfold generateGeneral at h
  have l1 := levels_first hopt.toOptS (projectAll o B L)
  have l2 := noLast_levels hopt.last (projectAll o B L)
  dsimp only at h
  generalize levels c.opt (projectAll o B L) = fl at h l1 l2
  split at h
  · exact absurd h (by simp)
  · rename_i r3 sep cst hr3
    have hQ := step3_pieces G hdim hr3
    have hQc := step3_convex G hr3
    have hsep : sep = true → 0 < L := by
      intro hse
      unfold step3 at hr3
      split at hr3
      · simp only [Option.some.injEq, Prod.mk.injEq] at hr3
        rw [← hr3.2.1] at hse
        exact absurd hse (by simp)
      · split at hr3
        · rw [Option.map_eq_some_iff] at hr3
          obtain ⟨r, _, hr⟩ := hr3
          simp only [Prod.mk.injEq] at hr
          rw [← hr.2.1] at hse
          exact absurd hse (by simp)
        · rename_i hf
          rcases Nat.eq_zero_or_pos L with hz | hz
          · have := h0s hz
            omega
          · exact hz
    split at h
    · exact absurd h (by simp)
    · rename_i r3b hr3b
      have hS := step3b_stage (ok := ok) (Rel := fun _ _ _ _ => True) G W (true_laws _) hp hc hsep
        hB.keys (fun b hb => ⟨hB.inner b hb, hdim b hb⟩) hQ hr3b
      have hpl3 := step3b_plain (fun q hq => (hQ.shape q hq).2.2) hr3b
      split at h
      · exact absurd h (by simp)
      · rename_i r4 hr4
        unfold step4 at hr4
        rw [if_pos (by omega)] at hr4
        obtain ⟨R', hS', hr4', hpl⟩ := recurse_stage G hns hopt.unroll (true_laws _) hp hc hS
          (step3b_convex hQc hr3b) hr4
        obtain ⟨hC, hN⟩ := recurseConst_out G A hp hc hr hgen hB.keys hKK hS'
          (fun r hr => ⟨fun h => hpl (Or.inl h) hpl3 r hr, fun h => hpl (Or.inr h) hpl3 r hr⟩) hr4'
        have hN' : ∀ t ∈ r4, CNode o mem ok c.opt.strides reach K L t ∧
            (c.opt.strides = false → t.stride = none) := fun t ht =>
          ⟨hN t ht, fun hs => recurseConst_plain (fun r hr => hpl (Or.inl hs) hpl3 r hr) hr4' t ht⟩
        unfold step5 at h
        dsimp only at h
        obtain ⟨r5, hr5, hC5, hN5⟩ : ∃ r5, (if c.opt.strides = true then propagate o r4 else r4) = r5 ∧
            Cover o mem ok reach L B r5 ∧ ∀ t ∈ r5, CNode o mem ok c.opt.strides reach K L t ∧
              (c.opt.strides = false → t.stride = none) := by
          by_cases hs : c.opt.strides = true
          · refine ⟨_, if_pos hs, hC.trans ?_, ?_⟩
            · intro p x e he
              obtain ⟨t, ht, he⟩ := hasLoops_iff.1 he
              exact hasLoops_iff.2 ⟨_, List.mem_map_of_mem ht, (propagate_out G (hN t ht)).2.2 p x e he⟩
            · intro t ht
              unfold propagate at ht
              obtain ⟨u, hu, rfl⟩ := List.mem_map.1 ht
              exact ⟨(propagate_out G (hN u hu)).1, fun h => by rw [hs] at h; exact absurd h (by simp)⟩
          · exact ⟨_, if_neg hs, hC, hN'⟩
        rw [hr5] at h
        split at h
        · rename_i hb
          unfold backtrack at h
          refine ⟨hC5.trans ?_, ?_⟩
          · intro p x e he
            obtain ⟨t, ht, he⟩ := hasLoops_iff.1 he
            obtain ⟨g, hg, hgT⟩ := flatMapM_fwd h ht
            exact hasLoops_sub hgT ((backtrack_out G hb.2.1 (hN5 t ht).1 hg).2 p x e he)
          · intro t ht
            obtain ⟨u, hu, g, hg, htg⟩ := flatMapM_mem h ht
            have := (backtrack_out G hb.2.1 (hN5 u hu).1 hg).1 t htg
            exact ⟨this.1, fun _ => this.2⟩
        · obtain rfl := Option.some.inj h
          exact ⟨hC5, hN5⟩

theorem generateComponents_out (G : GenLaws o mem) (A : AddStrideLaws o mem ok) {c : Ctx}
    (W : WFScal c.scaldims) (hopt : OptStop c.opt) (hns : c.opt.strides = true → StrideLaws o mem ok)
    {L s : Nat}
    (hp : Pos (isScal c.scaldims) L s) (hc : levelIsConstant L s (isScal c.scaldims) = false)
    (hr : ∀ j, j < L → ¬ reach j)
    {comb : List (Loop D S) → Option (List (Loop D S))} (hcomb : CombOK o c.opt comb)
    {gen : List (Loop D S) → D → Nat → Nat → Option (List (Loop D S))}
    (hgen : ∀ B d pd T, PreS o c.scaldims (L + 1) s B → (∀ k ∈ keys o B, k ∈ K) → o.dim d = L →
      Guard mem ok c.opt.strides L pd d → (∀ b ∈ B, ∀ px, mem b.dom px → mem d px) →
      gen B d (L + 1) s = some T → Out o mem ok c.opt.strides reach K (L + 1) pd B T)
    {fuel : Nat} {B T : List (Loop D S)} (hB : PreS o c.scaldims L s B) (hKK : ∀ k ∈ keys o B, k ∈ K)
    (h : generateComponentsC o comb fuel c gen L s (projectAll o B L) = some T) (pd : D) :
    Out o mem ok c.opt.strides reach K L pd B T := by
  unfold generateComponentsC at h
  split at h
  · have := generateGeneral_out G A W hopt hns hp hc hr hgen hB hKK h
    exact ⟨this.1, fun t ht => (this.2 t ht).1.cutted⟩
  · have hpa : projectAll o B L = B.map (Loop.project o L) := rfl
    rw [hpa, componentsOf_map (α := Unit)] at h
    split at h
    · exact absurd h (by simp)
    · rename_i cs' hcs
      rw [Option.map_eq_some_iff] at hcs
      obtain ⟨cs, hcs, rfl⟩ := hcs
      split at h
      · exact absurd h (by simp)
      · rename_i r hrr
        obtain ⟨c1, c2, _⟩ := componentsOf_spec (α := Unit) hcs
        have hk : ∀ k ∈ cs, ∀ g, generateGeneral o fuel c gen L s (k.map (Loop.project o L)) = some g →
            Cover o mem ok reach L k g ∧ ∀ t ∈ g, CNode o mem ok c.opt.strides reach K L t ∧
              (c.opt.strides = false → t.stride = none) := by
          intro k hk g hg
          have hkB := c1 k hk
          exact generateGeneral_out G A W hopt hns hp hc hr hgen
            ⟨fun b hb => hB.inner b (hkB.subset hb), fun b hb => hB.more b (hkB.subset hb),
              fun b hb => hB.low b (hkB.subset hb), hB.keys.sublist (keys_sublist hkB), hp⟩
            (fun q hq => hKK q ((keys_sublist hkB).subset hq)) hg
        have hall : ∀ t ∈ r, CNode o mem ok c.opt.strides reach K L t ∧
            (c.opt.strides = false → t.stride = none) := by
          intro t ht
          obtain ⟨k', hk', g, hg, htg⟩ := flatMapM_mem hrr ht
          obtain ⟨k, hkc, rfl⟩ := List.mem_map.1 hk'
          exact (hk k hkc g hg).2 t htg
        have hcov : Cover o mem ok reach L B r := by
          intro b hb u hu p x y hxy hm
          obtain ⟨k, hkc, hbk⟩ := c2 b hb
          obtain ⟨g, hg, hgr⟩ := flatMapM_fwd hrr (List.mem_map_of_mem hkc)
          obtain ⟨n, n1, n2⟩ := (hk k hkc g hg).1 b hbk u hu p x y hxy hm
          exact ⟨n, n1, hasLoops_sub hgr n2⟩
        obtain ⟨rfl, hss⟩ := hcomb _ _ h (fun hs t ht => (hall t ht).2 hs)
        obtain ⟨k1, k2⟩ := combine_out G (fun t ht => (hall t ht).1) hss
        exact ⟨hcov.trans k2, fun t ht => (k1 t ht).cutted⟩

theorem generateScalar_out (G : GenLaws o mem) {c : Ctx} (W : WFScal c.scaldims) {L s : Nat}
    (hp : Pos (isScal c.scaldims) L s) (hc : levelIsConstant L s (isScal c.scaldims) = true)
    (hr : ∀ j, j < L → ¬ reach j) {pd : D}
    {gen : List (Loop D S) → Nat → Option (List (Loop D S))}
    (hgen : ∀ B s' T, PreS o c.scaldims L s' B → (∀ k ∈ keys o B, k ∈ K) → gen B s' = some T →
      Out o mem ok st reach K L pd B T)
    {B T : List (Loop D S)} (hB : PreS o c.scaldims L s B) (hKK : ∀ k ∈ keys o B, k ∈ K)
    (h : generateScalar o c gen L s B = some T) : Out o mem ok st reach K L pd B T := by
  classical
  have hlen : (isScal c.scaldims).length = c.scaldims.length := by simp [isScal]
  obtain ⟨hk, hrun⟩ := isRun_of_const W hc
  have h0 : 0 < L := hrun.1
  unfold generateScalar at h
  dsimp only at h
  generalize runLength c.scaldims (L + s - 1) = k at h hk hrun
  obtain ⟨srt, s1, s2, s3, s4⟩ := C20_scalar_sort (scalOf (D := D) (S := S)) o.icmp G.icmp L
    (isScal c.scaldims) s k hrun B
  rw [s1 _ (Nat.lt_succ_self _)] at h
  dsimp only at h
  have hposn : Pos (isScal c.scaldims) L (s + k) := pos_scal h0 hp hrun.2.1
  -- comparison of two scalar vectors
  have hse : ∀ a b : Loop D S, scalarEq o.icmp L (isScal c.scaldims) s (scalOf a) (scalOf b) = true ↔
      LexEq s k (scalOf a) (scalOf b) := by
    intro a b
    unfold scalarEq
    rw [beq_iff_eq]
    exact (constantCmp_spec o.icmp G.icmp L (isScal c.scaldims) (scalOf a) (scalOf b) k s hrun).2
  have eqsymm : ∀ {a b : Nat → Int}, LexEq s k a b → LexEq s k b a := fun h j hj => (h j hj).symm
  have eqtrans : ∀ {a b d : Nat → Int}, LexEq s k a b → LexEq s k b d → LexEq s k a d :=
    fun h h' j hj => (h j hj).trans (h' j hj)
  -- pairs of the sorted list
  have hcls : ∀ (l : Loop D S) (ms : List (Loop D S)), ms.Sublist srt →
      (∀ m ∈ ms, LexEq s k (scalOf l) (scalOf m)) → ms.Sublist B := by
    intro l ms hms hm
    have hf := s4 (fun m => decide (LexEq s k (scalOf l) (scalOf m))) (by
      intro x y hx hy
      simp only [decide_eq_true_eq] at hx hy
      exact eqtrans (eqsymm hx) hy)
    have h1 : (ms.filter (fun m => decide (LexEq s k (scalOf l) (scalOf m)))) = ms := by
      rw [List.filter_eq_self]
      intro m hmm
      simpa using hm m hmm
    rw [← h1]
    refine (hms.filter _).trans ?_
    rw [hf]
    exact List.filter_sublist
  have hlast : (isScal c.scaldims).length < L + (s + k) → ∀ a b, [a, b].Sublist B →
      o.dim b.dom ≤ o.dim a.dom := by
    intro hl a b hab
    have hla : (isScal c.scaldims).getLast? = some true := by
      have := hrun.2.1 (k - 1) (by omega)
      have hlt := (List.getElem?_eq_some_iff.1 this).1
      rw [List.getLast?_eq_getElem?, show (isScal c.scaldims).length - 1 = L + s + (k - 1) - 1 by
        omega]
      exact this
    have := hB.keys.last hla
    unfold keys at this
    rw [List.pairwise_map] at this
    have := this.sublist hab
    simp only [List.pairwise_cons, List.mem_singleton, forall_eq] at this
    exact this.1
  have hnm : ∀ l : Loop D S, more o l L (s + k) c.scaldims.length = false →
      (isScal c.scaldims).length < L + (s + k) ∧ o.dim l.dom < L := by
    intro l h
    unfold more at h
    simp only [Bool.or_eq_false_iff, decide_eq_false_iff_not] at h
    omega
  have key : ∀ (n : Nat) (ls T : List (Loop D S)), ls.Sublist srt →
      scalarLoop o c (fun g => gen g (s + k)) L s (s + k) n ls = some T →
      Out o mem ok st reach K L pd ls T := by
    intro n
    induction n with
    | zero =>
      intro ls T _ h
      match ls, h with
      | [], h =>
        simp only [scalarLoop] at h
        obtain rfl := Option.some.inj h
        exact Out.nil
    | succ n ih =>
      intro ls T hsub h
      match ls, h with
      | [], h =>
        simp only [scalarLoop] at h
        obtain rfl := Option.some.inj h
        exact Out.nil
      | l :: ls, h =>
        rw [scalarLoop] at h
        obtain ⟨g1, g2, g3⟩ := span_group o c L s (s + k) l ls
        generalize (scalarGroup o c L s (s + k) l ls).1 = A at h g1 g2
        generalize (scalarGroup o c L s (s + k) l ls).2 = R at h g1 g3
        have hsubR : R.Sublist srt := by
          rw [← g1] at hsub
          exact (List.sublist_append_right A R).trans ((List.sublist_cons_self l _).trans hsub)
        by_cases hm : more o l L (s + k) c.scaldims.length = true
        · rw [if_pos hm] at h
          split at h
          · exact absurd h (by simp)
          · rename_i r hr
            split at h
            · exact absurd h (by simp)
            · rename_i rs hrs
              obtain rfl := Option.some.inj h
              have hiR := ih R rs hsubR hrs
              have hgl : ∀ m ∈ l :: A, LexEq s k (scalOf l) (scalOf m) := by
                intro m hmm
                rcases List.mem_cons.1 hmm with rfl | hmm
                · exact fun j _ => rfl
                · exact (hse l m).1 (g2 m hmm).2
              have hgs : (l :: A).Sublist srt := by
                rw [← g1] at hsub
                exact ((List.sublist_append_left A R).cons_cons l).trans hsub
              have hgB := hcls l (l :: A) hgs hgl
              have hpre : PreS o c.scaldims L (s + k) (l :: A) := by
                refine ⟨fun b hb => hB.inner b (hgB.subset hb), ?_, fun b hb => hB.low b (hgB.subset hb),
                  hB.keys.sublist (keys_sublist hgB), hposn⟩
                intro b hb
                rcases List.mem_cons.1 hb with rfl | hb
                · exact hm
                · exact (g2 b hb).1
              have hS := hgen _ _ _ hpre (fun q hq => hKK q ((keys_sublist hgB).subset hq)) hr
              rw [show l :: ls = (l :: A) ++ R by rw [List.cons_append, g1]]
              exact hS.append hiR
        · rw [if_neg hm] at h
          have hm' : more o l L (s + k) c.scaldims.length = false := by simpa using hm
          obtain ⟨n1, n2⟩ := hnm l hm'
          have hA : A = [] := by
            by_contra hne
            obtain ⟨m, A', rfl⟩ := List.exists_cons_of_ne_nil hne
            obtain ⟨m1, m2⟩ := g2 m (by simp)
            have hlm : [l, m].Sublist srt := by
              rw [← g1] at hsub
              refine List.Sublist.trans ?_ hsub
              simp
            have hB' := hcls l [l, m] hlm (by
              intro q hq
              simp only [List.mem_cons, List.not_mem_nil, or_false] at hq
              rcases hq with rfl | rfl
              · exact fun j _ => rfl
              · exact (hse l q).1 m2)
            have := hlast n1 l m hB'
            unfold more at m1
            simp only [Bool.or_eq_true, decide_eq_true_eq] at m1
            omega
          subst hA
          rw [List.nil_append] at g1
          subst g1
          have hlB : l ∈ B := s2.subset (hsub.subset (by simp))
          have hleaf : Out o mem ok st reach K L pd [l] [l] := Out.leaf G
            (by have := hB.low l hlB; omega) (hB.inner l hlB)
            (hB.keys.block (l.block, o.dim l.dom) (List.mem_map_of_mem hlB))
            (hKK _ (List.mem_map_of_mem hlB)) (fun j hj => hr j (by omega))
          split at h
          · exact absurd h (by simp)
          all_goals
            rename_i hrs
            obtain rfl := Option.some.inj h
            have hiR := ih _ _ hsubR hrs
            exact hleaf.append hiR
  have := key _ srt T (List.Sublist.refl _) h
  exact ⟨fun b hb => this.cover b (s2.symm.subset hb), this.cut⟩

theorem generateRestricted_out (G : GenLaws o mem) (A : AddStrideLaws o mem ok) {c : Ctx}
    (W : WFScal c.scaldims) (hopt : OptStop c.opt) (hns : c.opt.strides = true → StrideLaws o mem ok)
    {comb : List (Loop D S) → Option (List (Loop D S))} (hcomb : CombOK o c.opt comb) :
    ∀ (fuel : Nat) (orStop : Bool) (B : List (Loop D S)) (d pd : D) (L s : Nat) (T : List (Loop D S)),
      PreS o c.scaldims L s B → (∀ k ∈ keys o B, k ∈ K) →
      (orStop = false → ∀ j, j < L → ¬ Reached c j) →
      (∀ j, j + 1 < L → ¬ Reached c j) →
      (orStop = true → 0 < L → o.dim d + 1 = L ∧ Guard mem ok c.opt.strides (L - 1) pd d ∧
        (∀ b ∈ B, ∀ px, mem b.dom px → mem d px) ∧
        AfterIter (isScal c.scaldims) (L - 1) (L + s - 1)) →
      generateRestrictedC o comb c fuel orStop B d L s = some T →
      Out o mem ok c.opt.strides (Reached c) K L pd B T := by
  intro fuel
  induction fuel with
  | zero => intro _ B d pd L s T _ _ _ _ _ h; simp [generateRestrictedC] at h
  | succ fuel ih =>
    intro orStop B d pd L s T hB hKK hnr hnr' hd h
    rw [generateRestrictedC] at h
    split at h
    · rename_i hs
      obtain rfl := Option.some.inj h
      have h0 : 0 < L := by
        rcases hB.pos with ⟨h1, h2⟩ | ⟨h, _⟩
        · omega
        · exact h
      obtain ⟨d1, d2, d3, d4⟩ := hd hs.1 h0
      have hreach : Reached c (L - 1) := ⟨hs.2.1, _, d4, by omega⟩
      refine ⟨?_, ?_⟩
      · intro b hb u hu p x y hxy hm
        have hlow := hB.low b hb
        refine ⟨L - 1, ⟨fun j hj => hnr' j (by omega), ?_⟩, hasLoops_iff.2
          ⟨b.setDom d, List.mem_map_of_mem hb, ?_⟩⟩
        · by_cases he : L = o.dim b.dom + 1
          · exact Or.inl (by omega)
          · exact Or.inr ⟨by omega, hreach⟩
        · have hi := hB.inner b hb
          have hmd := d3 b hb _ hm
          obtain ⟨d', ot, sd, bl, inner⟩ := b
          simp only [Loop.inner_mk, Loop.block_mk] at hi hu
          subst hi hu
          rw [show L - 1 = o.dim d by omega]
          exact leaf_has G d1 hxy hmd
      · intro t ht
        unfold stop at ht
        obtain ⟨b, hb, rfl⟩ := List.mem_map.1 ht
        have h1 := hB.keys.block (b.block, o.dim b.dom) (List.mem_map_of_mem hb)
        have h2 := hB.inner b hb
        have h3 := hKK (b.block, o.dim b.dom) (List.mem_map_of_mem hb)
        have h4 := hB.low b hb
        obtain ⟨d', ot, sd, bl, inner⟩ := b
        simp only [Loop.inner_mk, Loop.block_mk, Loop.dom_mk] at h1 h2 h3 h4
        subst h2
        cases bl with
        | none => exact absurd rfl h1
        | some bl =>
          refine .leaf d1 h3 hnr' ?_
          by_cases he : L = o.dim d' + 1
          · exact Or.inl he
          · exact Or.inr ⟨by omega, hreach, d2⟩
    · rename_i hs
      have hnrL : ∀ j, j < L → ¬ Reached c j := by
        cases orStop with
        | false => exact hnr rfl
        | true =>
          intro j hj
          by_cases hjL : j + 1 < L
          · exact hnr' j hjL
          · obtain ⟨_, _, _, d4⟩ := hd rfl (by omega)
            rintro ⟨q1, P, q2, q3⟩
            have hjj : j = L - 1 := by omega
            rw [hjj] at q2
            have := d4.unique q2
            exact hs ⟨rfl, q1, by omega⟩
      split at h
      · rename_i hc
        exact generateScalar_out G W hB.pos hc hnrL
          (fun B' s' T' hB' hK' h' => ih false B' d pd L s' T' hB' hK' (fun _ => hnrL) hnr' (by simp) h')
          hB hKK h
      · rename_i hc
        have hc : levelIsConstant L s (isScal c.scaldims) = false := by simpa using hc
        refine generateComponents_out G A W hopt hns hB.pos hc hnrL hcomb
          (fun B' d' pd' T' hB' hK' hd' hg' hs' h' => ih true B' d' pd' (L + 1) s T' hB' hK' (by simp)
            (fun j hj => hnrL j (by omega)) (fun _ _ => ⟨by rw [hd'], hg', hs', ?_⟩) h') hB hKK h pd
        -- the position behind the iterator of this level
        rw [show L + 1 - 1 = L by omega, show L + 1 + s - 1 = L + s by omega]
        rcases pos_next hB.pos hc with ⟨h, _⟩ | ⟨_, hn⟩
        · omega
        · rw [show L + 1 + s - 1 = L + s by omega] at hn
          refine ⟨by omega, fun h0 => ?_, fun h0 => ?_⟩
          · rcases hB.pos with ⟨_, h⟩ | ⟨h, _⟩ <;> omega
          · unfold levelIsConstant at hc
            rw [decide_eq_true h0] at hc
            simp only [Bool.true_and, Bool.and_eq_false_iff, decide_eq_false_iff_not] at hc
            intro hsome
            rcases hc with hc | hc
            · have := (List.getElem?_eq_some_iff.1 hsome).1
              omega
            · rw [List.getD_eq_getElem?_getD, hsome] at hc
              simp at hc

/-- The whole generation: `cloog_loop_generate` at level 0. -/
theorem generateC_out (G : GenLaws o mem) (A : AddStrideLaws o mem ok) {c : Ctx}
    (W : WFScal c.scaldims) (hopt : OptStop c.opt) (hns : c.opt.strides = true → StrideLaws o mem ok)
    {comb : List (Loop D S) → Option (List (Loop D S))} (hcomb : CombOK o c.opt comb)
    {fuel : Nat} {B T : List (Loop D S)} {ctx : D} (hctx : o.dim ctx = 0)
    (hin : ∀ b ∈ B, b.inner = []) (hK : KOK (isScal c.scaldims) (fun _ _ => True) (keys o B))
    (h : generateC o comb c fuel B ctx 0 0 = some T) :
    (∀ t ∈ T, Cutted o mem ok c.opt.strides (Reached c) (keys o B) 0 ctx t) ∧
    ∀ b ∈ B, ∀ u, b.block = some u → ∀ p x y, mem ctx (p, x) → mem b.dom (p, y) →
      ∃ n, CutLen (Reached c) n (o.dim b.dom) ∧ hasLoops (sem o mem ok p) 0 x T ⟨u, argsOf n y⟩ := by
  have hR := restrictAll_spec G ctx B (fun b _ => by omega)
  have hctx' : ∀ p x y, mem ctx (p, y) ↔ mem ctx (p, x) := fun p x y =>
    G.congr_iff (fun i hi => by omega)
  unfold generateC at h
  split at h
  · rename_i he
    obtain rfl := Option.some.inj h
    rw [List.isEmpty_iff] at he
    refine ⟨by simp, fun b hb u hu p x y hc hm => ?_⟩
    obtain ⟨r, hr, _⟩ := hR.cover b hb _ hm ((hctx' p x y).2 hc)
    rw [he] at hr
    simp at hr
  · have hO := generateRestricted_out (K := keys o B) (ok := ok) G A W hopt hns hcomb fuel true _ ctx ctx
      0 0 T
      ⟨fun r hr => by
          obtain ⟨b, hb, _, _, h3, _⟩ := hR.sound r hr
          rw [← h3]; exact hin b hb,
        fun r _ => by simp [more], fun _ _ => by omega, hK.sublist hR.keys, Or.inl ⟨rfl, rfl⟩⟩
      (fun k hk => hR.keys.subset hk) (by simp) (fun j hj => by omega) (fun _ h => absurd h (by omega)) h
    refine ⟨hO.cut, fun b hb u hu p x y hc hm => ?_⟩
    obtain ⟨r, hr, h1, h2, h3⟩ := hR.cover b hb _ hm ((hctx' p x y).2 hc)
    obtain ⟨n, n1, n2⟩ := hO.cover r hr u (by rw [h1]; exact hu) p x y (fun i hi => by omega) h3
    exact ⟨n, by rw [← h2]; exact n1, n2⟩

end Verif.Gen
