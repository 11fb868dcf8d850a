import Verif.Lemmas.GenNest
import Verif.Lemmas.BoxDom

/-!
# C26: simplification in context
-/

namespace Verif.Props.Simplify

open Verif.Loop Verif.Gen Verif.Props.Separate

variable {D S C Par : Type} {o : DomOps D S C} {mem : D → Par × Pt → Prop} {ok : Nat → S → Par × Pt → Prop}

/-- What is assumed about `cloog_domain_simplify` (isl's gist) and `cloog_domain_never_integral`,
beyond `GenLaws`. -/
structure SimpLaws (o : DomOps D S C) (mem : D → Par × Pt → Prop) : Prop extends GenLaws o mem where
  gist : ∀ d c px, o.dim c = o.dim d → mem c px → (mem (o.gist d c) px ↔ mem d px)
  dim_gist : ∀ d c, o.dim c = o.dim d → o.dim (o.gist d c) = o.dim d
  neverIntegral : ∀ d, o.neverIntegral d = true → ∀ px, ¬ mem d px

mutual
/-- A loop at level `L` inside of `n` dimensions: its domain has at least these dimensions and at most
`L`, and if the loop scans its level the domain is convex (not a union). -/
def fitsLoop (o : DomOps D S C) : Nat → Nat → Loop D S → Prop
  | L, n, .mk d _ _ _ inner => n ≤ o.dim d ∧ o.dim d ≤ L ∧
      (0 < L → o.dim d = L → o.isConvex d = true) ∧ fits o (L + 1) (o.dim d) inner
/-- The same for a list of loops. -/
def fits (o : DomOps D S C) : Nat → Nat → List (Loop D S) → Prop
  | _, _, [] => True
  | L, n, l :: ls => fitsLoop o L n l ∧ fits o L n ls
end

theorem fits_iff {L n : Nat} : ∀ {ls : List (Loop D S)},
    fits o L n ls ↔ ∀ l ∈ ls, fitsLoop o L n l
  | [] => by simp [fits]
  | l :: ls => by simp [fits, fits_iff (ls := ls)]

theorem fitsLoop_iff {L n : Nat} {l : Loop D S} : fitsLoop o L n l ↔ n ≤ o.dim l.dom ∧
    o.dim l.dom ≤ L ∧ (0 < L → o.dim l.dom = L → o.isConvex l.dom = true) ∧
      fits o (L + 1) (o.dim l.dom) l.inner := by
  obtain ⟨d, ot, st, b, inner⟩ := l
  rw [fitsLoop]
  rfl

/-! ## Traces -/

theorem trace_append {m : Sem D S} {L : Nat} {x : Pt} {b : List (Loop D S)} {u : List Inst}
    (hb : TraceLoops m L x b u) : ∀ {a : List (Loop D S)} {t : List Inst}, TraceLoops m L x a t →
    TraceLoops m L x (a ++ b) (t ++ u)
  | [], t, h => by
    cases h
    exact hb
  | l :: a, t, h => by
    cases h with
    | cons h1 h2 =>
      rw [List.append_assoc]
      exact .cons h1 (trace_append hb h2)

theorem trace_single {m : Sem D S} {L : Nat} {x : Pt} {l : Loop D S} {t : List Inst} :
    TraceLoops m L x [l] t ↔ TraceLoop m L x l t := by
  constructor
  · intro h
    cases h with
    | cons h1 h2 =>
      cases h2
      rwa [List.append_nil]
  · intro h
    have := TraceLoops.cons h .nil
    rwa [List.append_nil] at this

theorem trace_points {m : Sem D S} {L : Nat} {d d' : D} {b : Option Block}
    {inner inner' : List (Loop D S)} (hd : m.dim d = m.dim d') : ∀ {ys : List Pt} {tr : List Inst},
    (∀ y ∈ ys, ∀ t, TraceLoops m (L + 1) y inner t → TraceLoops m (L + 1) y inner' t) →
    TracePoints m L d b inner ys tr → TracePoints m L d' b inner' ys tr
  | [], tr, _, h => by
    cases h
    exact .nil
  | y :: ys, tr, hi, h => by
    cases h with
    | cons h1 h2 =>
      have e : blockEvents m d b y = blockEvents m d' b y := by
        unfold blockEvents
        rw [hd]
      rw [e]
      exact .cons (hi y (by simp) _ h1) (trace_points hd (fun z hz => hi z (by simp [hz])) h2)

/-- A loop may be replaced by one that visits the same points. -/
theorem trace_loop {m : Sem D S} {L : Nat} {x : Pt} {d d' : D} {ot ot' : Bool} {st st' : Option S}
    {b : Option Block} {inner inner' : List (Loop D S)} {tr : List Inst} (hd : m.dim d = m.dim d')
    (hv : ∀ y, Visits m L x d st y ↔ Visits m L x d' st' y)
    (hi : ∀ y, Visits m L x d st y → ∀ t, TraceLoops m (L + 1) y inner t →
      TraceLoops m (L + 1) y inner' t)
    (h : TraceLoop m L x (.mk d ot st b inner) tr) :
    TraceLoop m L x (.mk d' ot' st' b inner') tr := by
  cases h with
  | mk h1 h2 h3 =>
    exact .mk (fun y => (h1 y).trans (hv y)) h2
      (trace_points hd (fun y hy => hi y ((h1 y).1 hy)) h3)

theorem trace_none {m : Sem D S} {L : Nat} {x : Pt} {d : D} {ot : Bool} {st : Option S}
    {b : Option Block} {inner : List (Loop D S)} {tr : List Inst} (hv : ∀ y, ¬ Visits m L x d st y)
    (h : TraceLoop m L x (.mk d ot st b inner) tr) : tr = [] := by
  cases h with
  | @mk _ _ _ _ _ _ _ ys _ h1 h2 h3 =>
    cases ys with
    | nil => cases h3; rfl
    | cons y ys => exact absurd ((h1 y).1 (by simp)) (hv y)

theorem trace_of_none {m : Sem D S} {L : Nat} {x : Pt} {d : D} {ot : Bool} {st : Option S}
    {b : Option Block} {inner : List (Loop D S)} (hv : ∀ y, ¬ Visits m L x d st y) :
    TraceLoop m L x (.mk d ot st b inner) [] :=
  .mk (ys := []) (fun y => by simpa using hv y) (by simp) .nil

theorem trace_empty {m : Sem D S} {L : Nat} {d : D} : ∀ {ys : List Pt} {tr : List Inst},
    TracePoints m L d none [] ys tr → tr = []
  | [], tr, h => by cases h; rfl
  | y :: ys, tr, h => by
    cases h with
    | cons h1 h2 =>
      cases h1
      rw [trace_empty h2]
      rfl

/-! ## Splitting -/

/-- A loop that does not scan its level may be split. -/
theorem trace_split (G : GenLaws o mem) {L : Nat} {l : Loop D S} (hd : ¬ (0 < L ∧ L ≤ o.dim l.dom))
    {p : Par} {x : Pt} : ∀ {g : List (Loop D S)} {tr : List Inst}, Split o mem l g →
    (∀ m ∈ g, o.dim m.dom = o.dim l.dom) →
    TraceLoop (sem o mem ok p) L x l tr → TraceLoops (sem o mem ok p) L x g tr := by
  obtain ⟨d, ot, st, b, inner⟩ := l
  simp only [Loop.dom_mk] at hd
  have hv : ∀ d' st', o.dim d' = o.dim d → ∀ y, Visits (sem o mem ok p) L x d' st' y ↔
      y = x ∧ mem d' (p, y) := by
    intro d' st' e y
    unfold Visits
    rw [if_neg (by rw [show (sem o mem ok p).dim d' = o.dim d from e]; exact hd)]
    rfl
  have hnone : ∀ g : List (Loop D S), (∀ m ∈ g, o.dim m.dom = o.dim d) →
      (∀ m ∈ g, ¬ mem m.dom (p, x)) → TraceLoops (sem o mem ok p) L x g [] := by
    intro g
    induction g with
    | nil => intro _ _; exact .nil
    | cons m g ih =>
      intro h1 h2
      obtain ⟨d', ot', st', b', inner'⟩ := m
      have hm : TraceLoop (sem o mem ok p) L x (.mk d' ot' st' b' inner') [] := by
        apply trace_of_none
        intro y hy
        rw [hv d' st' (h1 (.mk d' ot' st' b' inner') (by simp))] at hy
        obtain ⟨rfl, hy⟩ := hy
        exact h2 (.mk d' ot' st' b' inner') (by simp) hy
      exact .cons hm (ih (fun m hm => h1 m (by simp [hm])) (fun m hm => h2 m (by simp [hm])))
  intro g tr hs hdim h
  by_cases hx : mem d (p, x)
  · obtain ⟨m, hm, hmx⟩ := (hs.cover (p, x)).1 hx
    obtain ⟨g1, g2, rfl⟩ := List.append_of_mem hm
    have hdisj := hs.disj
    rw [List.pairwise_append, List.pairwise_cons] at hdisj
    have h1 : TraceLoops (sem o mem ok p) L x g1 [] := by
      refine hnone g1 (fun m hm => hdim m (by simp [hm])) (fun q hq hqx => ?_)
      exact hdisj.2.2 q hq m (by simp) (p, x) ⟨hqx, hmx⟩
    have h2 : TraceLoops (sem o mem ok p) L x g2 [] := by
      refine hnone g2 (fun m hm => hdim m (by simp [hm])) (fun q hq hqx => ?_)
      exact hdisj.2.1.1 q hq (p, x) ⟨hmx, hqx⟩
    have hmt : TraceLoop (sem o mem ok p) L x m tr := by
      obtain ⟨d', ot', st', b', inner'⟩ := m
      obtain ⟨e1, e2⟩ := hs.same _ hm
      have e3 := hdim _ hm
      simp only [Loop.inner_mk, Loop.block_mk, Loop.dom_mk] at e1 e2 e3 hmx
      subst e1 e2
      refine trace_loop (inner := inner') (d := d) (st := st) e3.symm ?_ (fun _ _ _ h => h) h
      intro y
      rw [hv d st rfl, hv d' st' e3]
      constructor
      · rintro ⟨rfl, _⟩; exact ⟨rfl, hmx⟩
      · rintro ⟨rfl, _⟩; exact ⟨rfl, hx⟩
    have := trace_append (.cons hmt h2) h1
    simpa using this
  · have := trace_none (b := b) (st := st) (fun y hy => by
      rw [hv d st rfl] at hy
      obtain ⟨rfl, hy⟩ := hy
      exact hx hy) h
    subst this
    exact hnone g hdim (fun m hm hmx => hx ((hs.cover (p, x)).2 ⟨m, hm, hmx⟩))

theorem trace_flatten {m : Sem D S} {L : Nat} {x : Pt} {ls : List (Loop D S)}
    {gs : List (List (Loop D S))}
    (h : List.Forall₂ (fun l g => ∀ t, TraceLoop m L x l t → TraceLoops m L x g t) ls gs) :
    ∀ {tr : List Inst}, TraceLoops m L x ls tr → TraceLoops m L x gs.flatten tr := by
  induction h with
  | nil => intro tr h; exact h
  | cons h1 _ ih =>
    intro tr h
    cases h with
    | cons t1 t2 => exact trace_append (ih t2) (h1 _ t1)

theorem forall₂_imp_mem {α β : Type} {R Q : α → β → Prop} {l : List α} {g : List β}
    (h : List.Forall₂ R l g) (hi : ∀ a ∈ l, ∀ b, R a b → Q a b) : List.Forall₂ Q l g := by
  induction h with
  | nil => exact .nil
  | cons h1 _ ih => exact .cons (hi _ (by simp) _ h1) (ih (fun a ha => hi a (by simp [ha])))

/-- The preparation: unions are simplified or split. -/
theorem prepare_trace (G : GenLaws o mem) {fuel L n : Nat} {ls ds : List (Loop D S)}
    (hf : fits o L n ls) (h : simplifyPrepare o fuel ls = some ds) :
    fits o L n ds ∧ ∀ p x tr, TraceLoops (sem o mem ok p) L x ls tr →
      TraceLoops (sem o mem ok p) L x ds tr := by
  unfold simplifyPrepare at h
  dsimp only at h
  generalize e : ls.map (fun l => if o.isConvex l.dom then l else l.setDom (o.simplifyUnion l.dom)) =
    ls' at h
  have key : fits o L n ls' ∧ ∀ p x tr, TraceLoops (sem o mem ok p) L x ls tr →
      TraceLoops (sem o mem ok p) L x ls' tr := by
    subst e
    rw [fits_iff] at hf ⊢
    constructor
    · intro l hl
      obtain ⟨l0, hl0, rfl⟩ := List.mem_map.1 hl
      have := hf l0 hl0
      split
      · exact this
      · rename_i hc
        rw [fitsLoop_iff] at this ⊢
        rw [Loop.dom_setDom, Loop.inner_setDom, G.dim_simplifyUnion]
        refine ⟨this.1, this.2.1, fun h1 h2 => ?_, this.2.2.2⟩
        exact absurd (this.2.2.1 h1 h2) hc
    · intro p x tr
      clear h hf
      induction ls generalizing tr with
      | nil => exact fun h => h
      | cons l ls ih =>
        intro h
        cases h with
        | cons h1 h2 =>
          rw [List.map_cons]
          refine .cons ?_ (ih _ h2)
          split
          · exact h1
          · obtain ⟨d, ot, st, b, inner⟩ := l
            refine trace_loop (G.dim_simplifyUnion d).symm (fun y => ?_) (fun _ _ _ h => h) h1
            have hdm : (sem o mem ok p).dim (o.simplifyUnion d) = (sem o mem ok p).dim d :=
              G.dim_simplifyUnion d
            have hm : (sem o mem ok p).mem (o.simplifyUnion d) y ↔ (sem o mem ok p).mem d y :=
              G.simplifyUnion d (p, y)
            unfold Visits
            rw [Loop.dom_mk, Loop.stride_mk, hdm, hm]
  split at h
  · obtain rfl := Option.some.inj h
    exact key
  · obtain ⟨k1, k2⟩ := key
    clear e
    unfold disjoint at h
    obtain ⟨gs, rfl, hg⟩ := flatMapM_spec h
    rw [fits_iff] at k1
    constructor
    · rw [fits_iff]
      intro m hm
      obtain ⟨l, hl, g, hgl, hmg⟩ := flatMapM_mem h hm
      have hfl := k1 l hl
      have hs := addDisjoint_spec G.toSetLaws fuel l g hgl
      rw [fitsLoop_iff] at hfl ⊢
      rw [addDisjoint_dim G fuel l g rfl hgl m hmg, (hs.same m hmg).1]
      exact ⟨hfl.1, hfl.2.1, fun _ _ => hs.convex m hmg, hfl.2.2.2⟩
    · intro p x tr ht
      refine trace_flatten (forall₂_imp_mem hg ?_) (k2 p x tr ht)
      intro l hl g hgl t ht
      by_cases hc : o.isConvex l.dom = true
      · have : g = [l] := by
          cases fuel with
          | zero => simp [addDisjoint] at hgl
          | succ fuel =>
            rw [addDisjoint, if_pos hc] at hgl
            exact (Option.some.inj hgl).symm
        subst this
        exact trace_single.2 ht
      · refine trace_split G ?_ (addDisjoint_spec G.toSetLaws fuel l g hgl)
          (addDisjoint_dim G fuel l g rfl hgl) ht
        rintro ⟨h0, h1⟩
        have hfl := k1 l hl
        rw [fitsLoop_iff] at hfl
        exact hc (hfl.2.2.1 h0 (by omega))

/-! ## Simplification -/

theorem visits_outer {m : Sem D S} {L : Nat} {x y : Pt} {d : D} {st : Option S}
    (h : Visits m L x d st y) : ∀ i, i + 1 < L ∨ L = 0 → y i = x i := by
  intro i hi
  unfold Visits at h
  split at h
  · obtain ⟨⟨v, rfl⟩, _⟩ := h
    exact setAt_other (by omega)
  · rw [h.1]

/-- **C26**.  Simplifying a list of loops at level `L` in a context (of less than `L` dimensions) that
holds at the current point does not change what is executed: every execution of the loops is an
execution of the simplified loops. -/
theorem C26_simplify (G : SimpLaws o mem) : ∀ (fuel L : Nat) (ls ds : List (Loop D S)) (ctx : D),
    o.dim ctx ≤ L - 1 → fits o L (o.dim ctx) ls → simplify o fuel ls ctx = some ds →
    ∀ p x, mem ctx (p, x) → ∀ tr, TraceLoops (sem o mem ok p) L x ls tr →
      TraceLoops (sem o mem ok p) L x ds tr := by
  intro fuel
  induction fuel with
  | zero => intro L ls ds ctx _ _ h; simp [simplify] at h
  | succ fuel ih =>
    intro L ls ds ctx hctx hf h p x hx tr htr
    rw [simplify] at h
    split at h
    · exact absurd h (by simp)
    rename_i ps hps
    obtain ⟨f1, f2⟩ := prepare_trace (ok := ok) G.toGenLaws hf hps
    have htr := f2 p x tr htr
    clear f2 hps hf
    obtain ⟨gs, rfl, hg⟩ := flatMapM_spec h
    rw [fits_iff] at f1
    refine trace_flatten (forall₂_imp_mem hg ?_) htr
    intro l hl g hgl t ht
    rw [Option.map_eq_some_iff] at hgl
    obtain ⟨r, hr, rfl⟩ := hgl
    have hfl := f1 l hl
    rw [fitsLoop_iff] at hfl
    obtain ⟨hn, hL, _, hin⟩ := hfl
    have hext : o.dim (o.extend ctx (o.dim l.dom)) = o.dim l.dom := G.dim_extend _ _ hn
    obtain ⟨d, ot, st, b, inner⟩ := l
    simp only [Loop.dom_mk, Loop.inner_mk, Loop.block_mk, Loop.otl_mk, Loop.stride_mk] at *
    have hc : ∀ y, Agree L x y → mem (o.extend ctx (o.dim d)) (p, y) := by
      intro y hy
      rw [G.extend _ _ _ hn]
      exact G.congr _ _ _ _ (fun i hi => hy i (by omega)) hx
    have hv : ∀ y, Visits (sem o mem ok p) L x d st y ↔
        Visits (sem o mem ok p) L x (o.gist d (o.extend ctx (o.dim d))) st y := by
      intro y
      have hdm : (sem o mem ok p).dim (o.gist d (o.extend ctx (o.dim d))) = (sem o mem ok p).dim d :=
        G.dim_gist _ _ hext
      have hm : Agree L x y → ((sem o mem ok p).mem (o.gist d (o.extend ctx (o.dim d))) y ↔
          (sem o mem ok p).mem d y) := fun hy => G.gist d _ (p, y) hext (hc y hy)
      unfold Visits
      rw [hdm]
      split
      · rename_i h0
        constructor
        · rintro ⟨⟨v, rfl⟩, h1, h2⟩
          exact ⟨⟨v, rfl⟩, (hm (agree_setAt x L v h0.1)).2 h1, h2⟩
        · rintro ⟨⟨v, rfl⟩, h1, h2⟩
          exact ⟨⟨v, rfl⟩, (hm (agree_setAt x L v h0.1)).1 h1, h2⟩
      · constructor
        · rintro ⟨rfl, h1⟩
          exact ⟨rfl, (hm (Agree.refl _ _)).2 h1⟩
        · rintro ⟨rfl, h1⟩
          exact ⟨rfl, (hm (Agree.refl _ _)).1 h1⟩
    change (if o.neverIntegral (o.gist d (o.extend ctx (o.dim d))) then some none
      else match simplify o fuel inner (o.inter d (o.extend ctx (o.dim d))) with
        | none => none
        | some inner => if inner.isEmpty ∧ b = none then some none
          else some (some (.mk (o.gist d (o.extend ctx (o.dim d))) ot st b inner))) = some r at hr
    by_cases hni : o.neverIntegral (o.gist d (o.extend ctx (o.dim d))) = true
    · rw [if_pos hni] at hr
      obtain rfl := Option.some.inj hr
      have := trace_none (fun y hy => G.neverIntegral _ hni (p, y) (visits_mem ((hv y).1 hy))) ht
      subst this
      exact .nil
    · rw [if_neg hni] at hr
      cases hinner : simplify o fuel inner (o.inter d (o.extend ctx (o.dim d))) with
      | none => rw [hinner] at hr; exact absurd hr (by simp)
      | some inner' =>
      rw [hinner] at hr
      dsimp only at hr
      have hctx' : o.dim (o.inter d (o.extend ctx (o.dim d))) = o.dim d := by
        rw [G.dim_inter _ _ hext.symm, hext]
      have hin' : ∀ y, Visits (sem o mem ok p) L x d st y → ∀ t,
          TraceLoops (sem o mem ok p) (L + 1) y inner t →
          TraceLoops (sem o mem ok p) (L + 1) y inner' t := by
        intro y hy t ht
        refine ih (L + 1) inner inner' _ (by rw [hctx']; simpa using hL) (by rw [hctx']; exact hin) hinner
          p y ?_ t ht
        rw [G.inter]
        refine ⟨visits_mem hy, hc y ?_⟩
        intro i hi
        exact (visits_outer hy i (Or.inl hi)).symm
      by_cases he : inner'.isEmpty = true ∧ b = none
      · rw [if_pos he] at hr
        obtain rfl := Option.some.inj hr
        have hi0 : inner' = [] := by simpa using he.1
        obtain ⟨_, rfl⟩ := he
        subst hi0
        have := trace_loop (ot' := ot) (d' := d) (st' := st) rfl (fun _ => Iff.rfl) hin' ht
        cases this with
        | mk _ _ h3 =>
          rw [trace_empty h3]
          exact .nil
      · rw [if_neg he] at hr
        obtain rfl := Option.some.inj hr
        exact trace_single.2 (trace_loop (G.dim_gist _ _ hext).symm hv hin' ht)

/-! ## Examples -/

section
open Verif.BoxDom

/-- The concrete domains satisfy the assumptions. -/
theorem box_laws : SimpLaws ops BoxDom.mem where
  toGenLaws := laws
  gist d c px hd hc := by
    simp only [ops]
    split
    · rename_i h
      have h1 : BoxDom.mem d px := by
        have := List.all_eq_true.1 h.2 _ hc
        simp only [BD.has, decide_eq_true_eq] at this
        rw [h.1, code_take (Nat.le_refl _)] at this
        exact this
      exact ⟨fun _ => h1, fun _ => by simpa [BoxDom.mem, BD.all] using code_univ px.2 d.dim⟩
    · split
      · rename_i h _
        have hh : c.has (code d.dim px.2) = true := by
          simp only [BD.has, decide_eq_true_eq]
          rw [show c.dim = d.dim from hd, code_take (Nat.le_refl _), ← show c.dim = d.dim from hd]
          exact hc
        rw [mem_filter, hh]
        simp
      · exact Iff.rfl
  dim_gist d c _ := by
    simp only [ops]
    split
    · rfl
    · split <;> rfl
  neverIntegral d h px hm := by
    simp only [ops, List.all_eq_true, decide_eq_true_eq] at h
    exact h _ (code_univ px.2 d.dim) hm

/-- A loop over the values 1 to 3; inside there is a statement whose domain is a union. -/
def exLoops : List (Loop BD (Int × Int)) :=
  [.mk ⟨0, [[[]]]⟩ false none none [.mk ⟨1, [[[1], [2], [3]]]⟩ false none none
    [.mk ⟨1, [[[1]], [[2]]]⟩ false none (some ⟨[1], []⟩) [],
     .mk ⟨1, [[[4]]]⟩ false none (some ⟨[2], []⟩) [],
     .mk ⟨1, [[[1], [2], [3], [4]]]⟩ false none (some ⟨[3], []⟩) []]]]

mutual
/-- The domains and statements of a tree, in preorder. -/
def flat : Nat → Loop BD (Int × Int) → List (Nat × List (List (List Int)) × List Nat)
  | L, .mk d _ _ b inner => (L, d.parts, (b.map Block.stmts).getD []) :: flats (L + 1) inner
/-- The same for lists. -/
def flats : Nat → List (Loop BD (Int × Int)) → List (Nat × List (List (List Int)) × List Nat)
  | _, [] => []
  | L, l :: ls => flat L l ++ flats L ls
end

/-- The first statement is split into its two values, the second one can never be executed under the
loop and is dropped, and the third one loses its guard. -/
example : fits ops 0 0 exLoops ∧
    (simplify ops 6 exLoops ⟨0, [[[]]]⟩).any (fun t => flats 0 t ==
      [(0, [[[]]], []), (1, [[[1], [2], [3]]], []), (2, [[[1]]], [1]), (2, [[[2]]], [1]),
       (2, [[[0], [1], [2], [3], [4]]], [3])]) = true := by
  refine ⟨?_, by decide +kernel⟩
  simp only [fits, fitsLoop, exLoops]
  decide

/-- A loop that scans a union: the values 1 and 3 in the first part, 2 in the second one. -/
def exUnion : Loop BD (Int × Int) := .mk ⟨1, [[[1], [3]], [[2]]]⟩ false none (some ⟨[1], []⟩) []

theorem visits_union (d : BD) (hd : d.dim = 1) (hb : ∀ v ∈ d.all, 0 < v.getD 0 0 ∧ v.getD 0 0 < 4)
    (x y : Pt) : Visits (sem ops BoxDom.mem (fun _ _ _ => True) ()) 1 x d none y ↔
      ∃ k : Int, [k] ∈ d.all ∧ y = setAt x 1 k := by
  unfold Visits
  rw [if_pos ⟨by omega, by show 1 ≤ d.dim; omega⟩]
  have hc : ∀ k : Int, code 1 (setAt x 1 k) = [clamp k] := by
    intro k
    simp [code, setAt]
  constructor
  · rintro ⟨⟨k, rfl⟩, hm, _⟩
    have hm : code d.dim (setAt x 1 k) ∈ d.all := hm
    rw [hd, hc] at hm
    have h3 := hb _ hm
    have : k = clamp k := by
      simp only [List.getD_cons_zero] at h3
      unfold clamp at h3 ⊢
      omega
    exact ⟨k, by rwa [← this] at hm, rfl⟩
  · rintro ⟨k, hk, rfl⟩
    refine ⟨⟨k, rfl⟩, ?_, by simp⟩
    show code d.dim (setAt x 1 k) ∈ d.all
    have h3 := hb _ hk
    simp only [List.getD_cons_zero] at h3
    rw [hd, hc, show clamp k = k by unfold clamp; omega]
    exact hk

/-- The convexity of scanned loops is needed: a loop over the values 1, 2, 3 whose domain is a union of
two parts is split by the simplification into a loop over 1 and 3 followed by a loop over 2. -/
theorem C26_union_reordered : ∃ ds, simplify ops 6 [exUnion] ⟨0, [[[]]]⟩ = some ds ∧
    ∃ tr, TraceLoops (sem ops BoxDom.mem (fun _ _ _ => True) ()) 1 (fun _ => 0) [exUnion] tr ∧
      ¬ TraceLoops (sem ops BoxDom.mem (fun _ _ _ => True) ()) 1 (fun _ => 0) ds tr := by
  have hds : simplify ops 6 [exUnion] ⟨0, [[[]]]⟩ =
      some [.mk ⟨1, [[[1], [3]]]⟩ false none (some ⟨[1], []⟩) [],
        .mk ⟨1, [[[2]]]⟩ false none (some ⟨[1], []⟩) []] := by
    rfl
  refine ⟨_, hds, [⟨⟨[1], []⟩, [1]⟩, ⟨⟨[1], []⟩, [2]⟩, ⟨⟨[1], []⟩, [3]⟩], ?_, ?_⟩
  · rw [trace_single]
    refine .mk (ys := [setAt (fun _ => 0) 1 1, setAt (fun _ => 0) 1 2, setAt (fun _ => 0) 1 3])
      ?_ (by simp [setAt]) ?_
    · intro y
      rw [visits_union _ rfl (by decide +kernel)]
      simp [BD.all]
      exact or_congr Iff.rfl Or.comm
    · exact .cons (t := []) .nil (.cons (t := []) .nil (.cons (t := []) .nil .nil))
  · intro h
    have := (trace_adequate h).2 ⟨⟨[1], []⟩, [2]⟩ ⟨⟨[1], []⟩, [3]⟩
    have h2 := this.1 (by decide)
    have v1 : ∀ y, Visits (sem ops BoxDom.mem (fun _ _ _ => True) ()) 1 (fun _ => 0)
        (⟨1, [[[1], [3]]]⟩ : BD) none y ↔ _ := visits_union _ rfl (by decide +kernel) _
    have v2 : ∀ y, Visits (sem ops BoxDom.mem (fun _ _ _ => True) ()) 1 (fun _ => 0)
        (⟨1, [[[2]]]⟩ : BD) none y ↔ _ := visits_union _ rfl (by decide +kernel) _
    simp only [seqLoops, seqLoop, hasLoops, hasLoop_mk, v1, v2, BlockAt, and_false, or_false,
      exists_false, false_or] at h2
    simp [BD.all, sem, ops, argsOf, setAt] at h2

end

end Verif.Props.Simplify
