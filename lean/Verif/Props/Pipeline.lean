import Verif.Lemmas.GenShape
import Verif.Props.Generate
import Verif.Props.PPrint

/-!
# From statements to the text of the program

The steps are put together: generation of the loop tree (C24), its simplification (C26), the clast (C25)
and its text (C35), as `cloog_program_generate` and `cloog_program_pprint` do
(`source/program.c:1027-1130`, `source/program.c:688-800`).
-/

namespace Verif.Props.Pipeline

open Verif.Loop Verif.Gen Verif.ScalarSort Verif.Props.Generate Verif.Props.Simplify

variable {D S C Par : Type} {o : DomOps D S C} {mem : D → Par × Pt → Prop}
  {ok : Nat → S → Par × Pt → Prop}

/-! ## Traces are unique -/

theorem points_unique {L : Nat} {P : Pt → Prop} : ∀ {ys zs : List Pt}, (∀ y, y ∈ ys ↔ P y) →
    (∀ y, y ∈ zs ↔ P y) → ys.Pairwise (fun y z => y (L - 1) < z (L - 1)) →
    zs.Pairwise (fun y z => y (L - 1) < z (L - 1)) → ys = zs := by
  intro ys zs h1 h2 p1 p2
  have n1 : ys.Nodup := p1.imp (fun h e => by rw [e] at h; exact absurd h (by omega))
  have n2 : zs.Nodup := p2.imp (fun h e => by rw [e] at h; exact absurd h (by omega))
  have hp : ys.Perm zs := (List.perm_ext_iff_of_nodup n1 n2).2 (fun y => (h1 y).trans (h2 y).symm)
  exact hp.eq_of_pairwise (fun a b _ _ h h' => absurd h (by omega)) p1 p2

/-- A list of loops has at most one trace. -/
theorem trace_unique {m : Sem D S} (ls : List (Loop D S)) : ∀ (L : Nat) (x : Pt) (t u : List Inst),
    TraceLoops m L x ls t → TraceLoops m L x ls u → t = u := by
  refine Loop.rec_1 (D := D) (S := S)
    (motive_1 := fun l => ∀ (L : Nat) (x : Pt) (t u : List Inst),
      TraceLoop m L x l t → TraceLoop m L x l u → t = u)
    (motive_2 := fun ls => ∀ (L : Nat) (x : Pt) (t u : List Inst),
      TraceLoops m L x ls t → TraceLoops m L x ls u → t = u) ?_ ?_ ?_ ls
  · intro d ot st b inner ih L x t u ht hu
    cases ht with
    | mk a1 a2 a3 =>
      cases hu with
      | mk b1 b2 b3 =>
        obtain rfl := points_unique a1 b1 a2 b2
        clear a1 a2 b1 b2
        rename_i ys
        have key : ∀ (ys : List Pt) (t u : List Inst), TracePoints m L d b inner ys t →
            TracePoints m L d b inner ys u → t = u := by
          intro ys
          induction ys with
          | nil => intro t u ht hu; cases ht; cases hu; rfl
          | cons y ys ihy =>
            intro t u ht hu
            cases ht with
            | cons c1 c2 =>
              cases hu with
              | cons d1 d2 =>
                rw [ih _ _ _ _ c1 d1, ihy _ _ c2 d2]
        exact key ys _ _ a3 b3
  · intro L x t u ht hu
    cases ht; cases hu; rfl
  · intro l ls ih1 ih2 L x t u ht hu
    cases ht with
    | cons a1 a2 =>
      cases hu with
      | cons b1 b2 => rw [ih1 _ _ _ _ a1 b1, ih2 _ _ _ _ a2 b2]

/-! ## Generation and simplification -/

theorem keys_weaken {flags : List Bool} {ord : Block → Block → Prop}
    {K : List (Option Block × Nat)} (h : KOK flags ord K) : KOK flags (fun _ _ => True) K where
  block := h.block
  ord := h.ord.imp (fun _ _ _ _ _ => trivial)
  uni := h.uni
  dims := h.dims
  last := h.last

/-- The simplified tree executes exactly the instances of the statements, each once and in the order of
the scattering: C24 and C26 together.  Partial as C24 is; the values of the loops are bounded. -/
theorem C58_simplified_partial [DecidableEq S] (G : SimpLaws o mem) (V : ConvLaws o)
    (K : StrideLaws o mem ok) {c : Ctx} (W : WFScal c.scaldims)
    (hopt : OptBase c.opt c.scaldims.length) (hlast : NoLast c.opt) {fuel fuel' : Nat}
    {B T ds : List (Loop D S)} {ctx : D} (hctx : o.dim ctx = 0)
    (hB : StmtsOK o (isScal c.scaldims) B) (h : generateS o c fuel B ctx 0 0 = some T)
    (hs : simplify o fuel' T ctx = some ds) (p : Par) (x : Pt) (hx : mem ctx (p, x))
    (hfin : FiniteLoops (sem o mem ok p) 0 T) :
    ∃ tr, TraceLoops (sem o mem ok p) 0 x ds tr ∧
      (∀ tr', TraceLoops (sem o mem ok p) 0 x ds tr' → tr' = tr) ∧
      (∀ e, e ∈ tr ↔ ∃ b ∈ B, ∃ y, mem b.dom (p, y) ∧ b.block = some e.block ∧
        e.args = argsOf (o.dim b.dom) y) ∧
      tr.Nodup ∧ tr.Pairwise (Earlier (isScal c.scaldims) (StmtBefore B)) := by
  obtain ⟨tr, htr⟩ := trace_exists T 0 x hfin
  obtain ⟨h1, h2, _, h4⟩ := C24_strides_partial G.toGenLaws K W hopt hctx hB h p x htr
  have hsh := generate_shaped G.toGenLaws V W ⟨hopt.first, hlast⟩ hctx hB.inner
    (keys_weaken (stmts_keys hB)) (generateS_generate h)
  have hf : fits o 0 (o.dim ctx) T := by
    rw [fits_iff, hctx]
    exact fun l hl => shaped_fits (hsh l hl)
  have htr' := C26_simplify (ok := ok) G fuel' 0 T ds ctx (by omega) hf hs p x hx tr htr
  refine ⟨tr, htr', fun tr' ht => trace_unique ds 0 x _ _ ht htr', fun e => ?_, h2, h4 hlast⟩
  rw [h1]
  exact ⟨fun h => h.2, fun h => ⟨hx, h⟩⟩

/-! ## The dimensions of the simplified tree -/

/-- A loop at its level, as `Shaped` without convexity. -/
inductive Outline (o : DomOps D S C) : Nat → Loop D S → Prop
  | node {L d ot st inner} : o.dim d = L → (∀ i ∈ inner, Outline o (L + 1) i) →
      Outline o L (.mk d ot st none inner)
  | leaf {L d ot st b} : o.dim d + 1 = L → Outline o L (.mk d ot st (some b) [])

theorem shaped_outline {L : Nat} {l : Loop D S} (h : Shaped o L l) : Outline o L l := by
  induction h with
  | node h1 _ _ ih => exact .node h1 ih
  | leaf h => exact .leaf h

theorem Outline.change {L : Nat} {l m : Loop D S} (h : Outline o L l) (h1 : o.dim m.dom = o.dim l.dom)
    (h2 : m.inner = l.inner) (h3 : m.block = l.block) : Outline o L m := by
  obtain ⟨d, ot, st, b, inner⟩ := m
  simp only [Loop.dom_mk, Loop.inner_mk, Loop.block_mk] at h1 h2 h3
  subst h2 h3
  cases h with
  | node a b => exact .node (h1.trans a) b
  | leaf a => exact .leaf (by rw [h1]; exact a)

theorem Outline.dim_lt {L : Nat} {l : Loop D S} (h : Outline o L l) :
    L - 1 ≤ o.dim l.dom ∧ o.dim l.dom ≤ L := by
  cases h with
  | node a _ => simp only [Loop.dom_mk]; omega
  | leaf a => simp only [Loop.dom_mk]; omega

theorem prepare_outline (G : GenLaws o mem) {fuel L : Nat} {ls ds : List (Loop D S)}
    (hl : ∀ l ∈ ls, Outline o L l) (h : simplifyPrepare o fuel ls = some ds) :
    ∀ l ∈ ds, Outline o L l := by
  unfold simplifyPrepare at h
  dsimp only at h
  generalize e : ls.map (fun l => if o.isConvex l.dom then l else l.setDom (o.simplifyUnion l.dom)) =
    ls' at h
  have key : ∀ l ∈ ls', Outline o L l := by
    subst e
    intro l hl'
    obtain ⟨l0, hl0, rfl⟩ := List.mem_map.1 hl'
    split
    · exact hl l0 hl0
    · refine (hl l0 hl0).change ?_ (Loop.inner_setDom _ _) ?_
      · rw [Loop.dom_setDom, G.dim_simplifyUnion]
      · cases l0; rfl
  split at h
  · obtain rfl := Option.some.inj h
    exact key
  · intro m hm
    obtain ⟨l, hl', g, hgl, hmg⟩ := flatMapM_mem h hm
    have hs := Verif.Props.Separate.addDisjoint_spec G.toSetLaws fuel l g hgl
    exact (key l hl').change (addDisjoint_dim G fuel l g rfl hgl m hmg) (hs.same m hmg).1
      (hs.same m hmg).2

theorem simplify_outline (G : SimpLaws o mem) : ∀ (fuel L : Nat) (ls ds : List (Loop D S)) (ctx : D),
    o.dim ctx = L - 1 → (∀ l ∈ ls, Outline o L l) → simplify o fuel ls ctx = some ds →
    ∀ l ∈ ds, Outline o L l := by
  intro fuel
  induction fuel with
  | zero => intro L ls ds ctx _ _ h; simp [simplify] at h
  | succ fuel ih =>
    intro L ls ds ctx hctx hl h m hm
    rw [simplify] at h
    split at h
    · exact absurd h (by simp)
    rename_i ps hps
    have hp := prepare_outline G.toGenLaws hl hps
    obtain ⟨l, hl', g, hgl, hmg⟩ := flatMapM_mem h hm
    rw [Option.map_eq_some_iff] at hgl
    obtain ⟨r, hr, rfl⟩ := hgl
    have ho := hp l hl'
    obtain ⟨d1, d2⟩ := ho.dim_lt
    have hext : o.dim (o.extend ctx (o.dim l.dom)) = o.dim l.dom := G.dim_extend _ _ (by omega)
    unfold loopSimplify at hr
    dsimp only at hr
    split at hr
    · obtain rfl := Option.some.inj hr
      simp at hmg
    · split at hr
      · exact absurd hr (by simp)
      · rename_i inner hin
        split at hr
        · obtain rfl := Option.some.inj hr
          simp at hmg
        · obtain rfl := Option.some.inj hr
          simp only [Option.toList_some, List.mem_singleton] at hmg
          subst hmg
          have hd : o.dim (o.gist l.dom (o.extend ctx (o.dim l.dom))) = o.dim l.dom :=
            G.dim_gist _ _ hext
          cases ho with
          | node a b =>
            simp only [Loop.dom_mk, Loop.inner_mk, Loop.block_mk] at *
            refine .node (hd.trans a) (ih (L + 1) _ _ _ ?_ b hin)
            rw [G.dim_inter _ _ hext.symm, hext, a]
            rfl
          | leaf a =>
            simp only [Loop.dom_mk, Loop.inner_mk, Loop.block_mk] at *
            have : inner = [] := by
              cases fuel with
              | zero => simp [simplify] at hin
              | succ fuel =>
                rw [simplify] at hin
                simpa [simplifyPrepare, flatMapM] using hin.symm
            subst this
            exact .leaf (by rw [hd]; exact a)

/-! ## The tree as code generation reads it -/

open Verif.ClastGen (Dom Stride Names TreeRun LoopRun ValsRun)

mutual
/-- The tree handed to `cloog_clast_create`: domains as constraint sets
(`cloog_domain_constraints`), blocks as lists of statements. -/
def toLoop (view : D → Dom) (vs : S → Stride) : Loop D S → ClastGen.Loop
  | .mk d ot st b inner =>
    .mk (view d) (st.map vs) ot (match b with | some b => b.stmts | none => []) (toLoops view vs inner)
/-- The same for lists. -/
def toLoops (view : D → Dom) (vs : S → Stride) : List (Loop D S) → List ClastGen.Loop
  | [] => []
  | l :: ls => toLoop view vs l :: toLoops view vs ls
end

mutual
/-- The constraint sets and strides of a loop describe its domains and strides. -/
def Faithful (o : DomOps D S C) (mem : D → Par × Pt → Prop) (ok : Nat → S → Par × Pt → Prop)
    (nPar : Nat) (view : D → Dom) (vs : S → Stride) (p : Par) (v : Nat → Int) : Nat → Loop D S → Prop
  | L, .mk d _ st _ inner =>
    (view d).nIter = o.dim d ∧ (∀ x, (view d).mem x v ↔ mem d (p, x)) ∧
    (∀ s, st = some s → ∀ x, ClastGen.strideOk (some (vs s)) (L - 1) nPar x v ↔ ok L s (p, x)) ∧
    Faithfuls o mem ok nPar view vs p v (L + 1) inner
/-- The same for lists. -/
def Faithfuls (o : DomOps D S C) (mem : D → Par × Pt → Prop) (ok : Nat → S → Par × Pt → Prop)
    (nPar : Nat) (view : D → Dom) (vs : S → Stride) (p : Par) (v : Nat → Int) :
    Nat → List (Loop D S) → Prop
  | _, [] => True
  | L, l :: ls => Faithful o mem ok nPar view vs p v L l ∧ Faithfuls o mem ok nPar view vs p v L ls
end

/-- Specification: the calls of statements made by instances of blocks; the iterators before `nScat`
are those of the scattering and not passed. -/
def calls (nScat : Nat) (tr : List Inst) : List ClastGen.Event :=
  tr.flatMap (fun e => e.block.stmts.map (fun s => ⟨s, e.args.drop nScat⟩))

theorem filter_range (k n : Nat) : (List.range n).filter (fun i => decide (k ≤ i)) =
    (List.range n).drop k := by
  induction n with
  | zero => simp
  | succ n ih =>
    rw [List.range_succ, List.filter_append, ih]
    by_cases h : k ≤ n
    · rw [List.drop_append_of_le_length (by simpa using h)]
      simp [h]
    · rw [List.drop_eq_nil_of_le (by simp; omega), List.drop_eq_nil_of_le (by simp; omega)]
      simp [h]

theorem calls_block (k n : Nat) (b : Block) (x : Pt) :
    ClastGen.blockEvents k b.stmts n x = calls k [⟨b, argsOf n x⟩] := by
  unfold ClastGen.blockEvents calls argsOf
  simp only [List.flatMap_cons, List.flatMap_nil, List.append_nil]
  rw [filter_range, ← List.map_drop]

theorem calls_append (k : Nat) (t u : List Inst) : calls k (t ++ u) = calls k t ++ calls k u := by
  simp [calls]

theorem treeRun_of (nm : Names) (view : D → Dom) (vs : S → Stride) (p : Par) (v : Nat → Int) {L : Nat} :
    ∀ {ls : List (Loop D S)} {x : Pt} {tr : List Inst},
      (∀ l ∈ ls, ∀ x t, Faithful o mem ok nm.nPar view vs p v L l → TraceLoop (sem o mem ok p) L x l t →
        LoopRun nm v L (toLoop view vs l) x (calls nm.nScat t)) →
      Faithfuls o mem ok nm.nPar view vs p v L ls →
      TraceLoops (sem o mem ok p) L x ls tr → TreeRun nm v L (toLoops view vs ls) x (calls nm.nScat tr)
  | [], x, tr, _, _, h => by
    cases h
    rw [toLoops]
    exact .nil
  | l :: ls, x, tr, hl, hf, h => by
    cases h with
    | cons h1 h2 =>
      rw [Faithfuls] at hf
      rw [toLoops, calls_append]
      exact .cons (hl l (by simp) _ _ hf.1 h1)
        (treeRun_of nm view vs p v (fun m hm => hl m (by simp [hm])) hf.2 h2)

/-- A trace of a loop is a run of the loop that code generation reads. -/
theorem loopRun_of (nm : Names) (view : D → Dom) (vs : S → Stride) (p : Par) (v : Nat → Int)
    {L : Nat} {l : Loop D S} (ho : Outline o L l) : ∀ (x : Pt) (t : List Inst),
    Faithful o mem ok nm.nPar view vs p v L l → TraceLoop (sem o mem ok p) L x l t →
    LoopRun nm v L (toLoop view vs l) x (calls nm.nScat t) := by
  have single : ∀ (d : D) (L : Nat) (x : Pt) (ys : List Pt),
      (∀ y, y ∈ ys ↔ y = x ∧ mem d (p, y)) → ys.Pairwise (fun y z => y (L - 1) < z (L - 1)) →
      (mem d (p, x) ∧ ys = [x]) ∨ (¬ mem d (p, x) ∧ ys = []) := by
    intro d L x ys h1 h2
    by_cases hm : mem d (p, x)
    · refine Or.inl ⟨hm, ?_⟩
      have hall : ∀ y ∈ ys, y = x := fun y hy => ((h1 y).1 hy).1
      match ys, h1, h2, hall with
      | [], h1, _, _ => exact absurd ((h1 x).2 ⟨rfl, hm⟩) (by simp)
      | [y], _, _, hall => rw [hall y (by simp)]
      | y :: z :: ys, _, h2, hall =>
        have := (List.pairwise_cons.1 h2).1 z (by simp)
        rw [hall y (by simp), hall z (by simp)] at this
        omega
    · refine Or.inr ⟨hm, ?_⟩
      rw [List.eq_nil_iff_forall_not_mem]
      intro y hy
      obtain ⟨rfl, h⟩ := (h1 y).1 hy
      exact hm h
  induction ho with
  | @node L d ot st inner hd _ ih =>
    intro x t hf ht
    rw [Faithful] at hf
    obtain ⟨f1, f2, f3, f4⟩ := hf
    cases ht with
    | @mk _ _ _ _ _ _ _ ys _ h1 h2 h3 =>
    rw [toLoop]
    by_cases h0 : 0 < L
    · have hv : ∀ y, y ∈ ys ↔ (∃ w, y = setAt x L w) ∧ mem d (p, y) ∧ ∀ s, st = some s → ok L s (p, y) := by
        intro y
        rw [h1 y]
        unfold Visits
        rw [if_pos ⟨h0, by simp only [sem]; omega⟩]
        rfl
      have hpt : ∀ y ∈ ys, y = Function.update x (L - 1) (y (L - 1)) := by
        intro y hy
        obtain ⟨⟨w, rfl⟩, _⟩ := (hv y).1 hy
        unfold setAt
        simp
      refine .scan h0 (by rw [f1, hd]) (vals := ys.map (fun y => y (L - 1))) ?_ ?_ ?_
      · rw [List.pairwise_map]
        exact h2
      · intro w
        have hstr : ClastGen.strideOk (st.map vs) (L - 1) nm.nPar (Function.update x (L - 1) w) v ↔
            ∀ s, st = some s → ok L s (p, Function.update x (L - 1) w) := by
          cases st with
          | none => simp [ClastGen.strideOk]
          | some s =>
            rw [Option.map_some, f3 s rfl]
            simp
        rw [f2, hstr, List.mem_map]
        constructor
        · rintro ⟨y, hy, rfl⟩
          rw [← hpt y hy]
          exact ((hv y).1 hy).2
        · intro h
          exact ⟨Function.update x (L - 1) w, (hv _).2 ⟨⟨w, rfl⟩, h⟩, by simp⟩
      · clear h1 h2 hv
        induction ys generalizing t with
        | nil => cases h3; exact .nil
        | cons y ys ihy =>
          cases h3 with
          | cons c1 c2 =>
            have e := hpt y (by simp)
            rw [calls_append, calls_append]
            have hr := treeRun_of nm view vs p v ih f4 c1
            rw [e] at hr
            have hn := ihy _ c2 (fun z hz => hpt z (by simp [hz]))
            rw [List.map_cons]
            have := ValsRun.cons (nm := nm) (p := v) (L := L) (block := []) (x := x)
              (v := y (L - 1)) hr hn
            simpa [ClastGen.blockEvents, Loop.blockEvents, calls] using this
    · have hv : ∀ y, y ∈ ys ↔ y = x ∧ mem d (p, y) := by
        intro y
        rw [h1 y]
        unfold Visits
        rw [if_neg (by omega)]
        rfl
      rcases single d L x ys hv h2 with ⟨hm, rfl⟩ | ⟨hm, rfl⟩
      · cases h3 with
        | cons c1 c2 =>
          cases c2
          have hr := treeRun_of nm view vs p v ih f4 c1
          have := LoopRun.leaf (nm := nm) (p := v) (D := view d) (st := st.map vs) (otl := ot)
            (block := []) (by omega) ((f2 x).2 hm) hr
          simpa [ClastGen.blockEvents, Loop.blockEvents, calls] using this
      · cases h3
        exact .skip (by omega) (fun h => hm ((f2 x).1 h))
  | @leaf L d ot st b hd =>
    intro x t hf ht
    rw [Faithful] at hf
    obtain ⟨f1, f2, f3, f4⟩ := hf
    cases ht with
    | @mk _ _ _ _ _ _ _ ys _ h1 h2 h3 =>
    rw [toLoop]
    have hv : ∀ y, y ∈ ys ↔ y = x ∧ mem d (p, y) := by
      intro y
      rw [h1 y]
      unfold Visits
      rw [if_neg (by simp only [sem]; omega)]
      rfl
    rcases single d L x ys hv h2 with ⟨hm, rfl⟩ | ⟨hm, rfl⟩
    · cases h3 with
      | cons c1 c2 =>
        cases c2
        cases c1
        have hr : TreeRun nm v (L + 1) (toLoops view vs ([] : List (Loop D S))) x [] := by
          rw [toLoops]; exact .nil
        have := LoopRun.leaf (nm := nm) (p := v) (D := view d) (st := st.map vs) (otl := ot)
          (block := b.stmts) (by omega) ((f2 x).2 hm) hr
        rw [calls_block] at this
        have e : L - 1 = o.dim d := by omega
        rw [e] at this
        simpa [Loop.blockEvents, sem] using this
    · cases h3
      exact .skip (by omega) (fun h => hm ((f2 x).1 h))

/-! ## The whole -/

open Verif.ClastGen Verif.Clast Verif.Bound Verif.PPrint Verif.CText Verif.PStmt Verif.PClast in
/-- **C58**, partial.  The text printed for a program with the statements `B` and the context `ctx` is a C
program that can be read in one way only, and every execution of it (with the parameters set, inside the
context) calls exactly the statements at the points of their domains, each once and in the order of the
scattering; and there is such an execution.

Assumed: the contracts of the isl operations (`SimpLaws`, `ConvLaws`, `StrideLaws`) and that the
constraint sets describe the domains (`Faithfuls`); the options and statements of C24 (`OptBase`,
`NoLast`, `StmtsOK`; no `-stop`); that the loops have finitely many values; what C25 assumes about the
constraints (`WfLoops`) and C35 about names. -/
theorem C58_text_partial [DecidableEq S] (G : SimpLaws o mem) (V : ConvLaws o)
    (K : StrideLaws o mem ok) {c : Verif.Loop.Ctx} (W : WFScal c.scaldims)
    (hopt : OptBase c.opt c.scaldims.length) (hlast : NoLast c.opt) {fuel fuel' : Nat}
    {B T ds : List (Verif.Loop.Loop D S)} {ctx : D} (hctx : o.dim ctx = 0)
    (hB : StmtsOK o (isScal c.scaldims) B) (h : generateS o c fuel B ctx 0 0 = some T)
    (hs : simplify o fuel' T ctx = some ds) (p : Par) (hx : ∀ x, mem ctx (p, x))
    (hfin : FiniteLoops (sem o mem ok p) 0 T)
    (cx : ClastGen.Ctx) (view : D → Dom) (vs : S → Stride) (v : Nat → Int)
    (hv : Faithfuls o mem ok cx.nm.nPar view vs p v 0 ds)
    (nm : Nat → String) (hnm : ∀ k, name (nm k) = true) (hc : CtxPrint cx)
    (hn : ClastGen.NamesOK cx.nm) (icmp : Int → Int → Int)
    (hl : loopsOK (toLoops view vs ds) = true)
    (hW : Props.ClastExec.WfLoops cx v 0 (fun _ => false) [] (fun _ => none) (fun _ => True)
      (toLoops view vs ds))
    (ss : List Stmt) (hcl : clastCreate cx icmp (toLoops view vs ds) = some ss) (n : Nat) (env : Env)
    (henv : ∀ k, k < cx.nm.nPar → env (cx.nm.param k) = v k) :
    ∃ tr : List Inst,
      (∀ e, e ∈ tr ↔ ∃ b ∈ B, ∃ y, mem b.dom (p, y) ∧ b.block = some e.block ∧
        e.args = argsOf (o.dim b.dom) y) ∧
      tr.Nodup ∧ tr.Pairwise (Earlier (isScal c.scaldims) (StmtBefore B)) ∧
      ∃ prog, Props.PPrint.Program (text (printStmts nm n ss)) prog ∧
        (∃ env', Run prog env ((calls cx.nm.nScat tr).map (ev nm)) env') ∧
        ∀ tr' env', Run prog env tr' env' → tr' = (calls cx.nm.nScat tr).map (ev nm) := by
  obtain ⟨tr, t1, _, t3, t4, t5⟩ := C58_simplified_partial (ok := ok) G V K W hopt hlast hctx hB h hs p
    (fun _ => 0) (hx _) hfin
  have hsh := generate_shaped G.toGenLaws V W ⟨hopt.first, hlast⟩ hctx hB.inner
    (keys_weaken (stmts_keys hB)) (generateS_generate h)
  have ho := simplify_outline G fuel' 0 T ds ctx (by omega) (fun l hl => shaped_outline (hsh l hl)) hs
  have hrun := treeRun_of cx.nm view vs p v (fun l hl x t => loopRun_of cx.nm view vs p v (ho l hl) x t)
    hv t1
  exact ⟨tr, t3, t4, t5, Props.PPrint.C35_tree_text_partial nm hnm cx hc hn icmp v (fun _ => 0) _ hl _
    hW hrun ss hcl n env henv⟩

/-! ## Example -/

open Verif.BoxDom in
/-- The concrete domains satisfy the assumptions on unions. -/
theorem box_conv : ConvLaws ops where
  inter a b ha _ := by
    simp only [ops, decide_eq_true_eq, BD.filter, BD.lift] at *
    refine Nat.le_trans (List.length_filter_le _ _) ?_
    split <;> simpa using ha
  fixed d L c k hd := by
    simp only [ops, decide_eq_true_eq, BD.filter] at *
    exact Nat.le_trans (List.length_filter_le _ _) (by simpa using hd)
  lower d L s hd := hd
  dim_lower d L s := rfl
  dim_addStride d s := rfl

/-- Two statements: `1 <= i <= 3` and `2 <= i <= 3`. -/
def exB : List (Loop BoxDom.BD (Int × Int)) :=
  [stmt 1 [] (box 1 [[1], [2], [3]]), stmt 2 [] (box 1 [[2], [3]])]

/-- The simplified tree: the value 1 is separated, the statements have no guards. -/
def exDs : List (Loop BoxDom.BD (Int × Int)) :=
  [.mk ⟨0, [[[]]]⟩ false none none
    [.mk ⟨1, [[[1]]]⟩ false none none
      [.mk ⟨1, [[[0], [1], [2], [3], [4]]]⟩ false none (some ⟨[1], []⟩) []],
     .mk ⟨1, [[[2], [3]]]⟩ false none none
      [.mk ⟨1, [[[0], [1], [2], [3], [4]]]⟩ false none (some ⟨[1], []⟩) [],
       .mk ⟨1, [[[0], [1], [2], [3], [4]]]⟩ false none (some ⟨[2], []⟩) []]]]

/-- The constraint sets of these domains. -/
def exView (d : BoxDom.BD) : Dom :=
  if d.parts = [[[1]]] then ⟨1, [], [⟨true, [-1, 0], 1⟩]⟩
  else if d.parts = [[[2], [3]]] then ⟨1, [], [⟨false, [1, 0], -2⟩, ⟨false, [-1, 0], 3⟩]⟩
  else ⟨d.dim, [], []⟩

/-- The tree that code generation gets. -/
def exTree : List ClastGen.Loop :=
  [.mk ⟨0, [], []⟩ none false []
    [.mk ⟨1, [], [⟨true, [-1, 0], 1⟩]⟩ none false [] [.mk ⟨1, [], []⟩ none false [1] []],
     .mk ⟨1, [], [⟨false, [1, 0], -2⟩, ⟨false, [-1, 0], 3⟩]⟩ none false []
      [.mk ⟨1, [], []⟩ none false [1] [], .mk ⟨1, [], []⟩ none false [2] []]]]

/-- There are no strides. -/
def exVs (s : Int × Int) : Stride := ⟨s.1, 0, s.2, none⟩

theorem exTree_eq : toLoops exView exVs exDs = exTree := by rfl

open Verif.ClastGen Verif.Props.ClastExec in
theorem exTree_wf (p : Nat → Int) :
    WfLoops ClastExec.exC p 0 (fun _ => false) [] (fun _ => none) (fun _ => True) exTree := by
  have gl : ∀ (L : Nat) ok eqs strides K (n : Nat),
      GuardOK ClastExec.exC p L ok eqs strides K ⟨n, [], []⟩ :=
    fun L ok eqs strides K n => guardOK_noDivs _ _ _ _ _ _ _ _ rfl (by simp) (by simp) (by simp)
  refine .cons (.root rfl (gl _ _ _ _ _ _) ?_) .nil
  refine .cons (.scan (by omega) rfl (by simp) ?_ ?_ ?_) (.cons (.scan (by omega) rfl (by simp) ?_ ?_ ?_) .nil)
  · exact guardOK_noDivs _ _ _ _ _ _ _ _ rfl (by decide) (by decide) (by decide)
  · generalize hD : (⟨1, [], [⟨true, [-1, 0], 1⟩]⟩ : Dom) = E
    have h1 : E.definingEquality E.rows (1 - 1) = some ⟨true, [-1, 0], 1⟩ := by subst hD; decide
    refine ⟨fun u h => ?_, fun h => ?_, fun h => ?_⟩
    · rw [h1] at h
      injection h with h
      subst h
      refine ⟨?_, ?_, ?_, ?_, fun _ _ _ => trivial, fun h => by cases h⟩
      · intro c hc _
        omega
      · intro _ h; exact absurd rfl h
      · intro _ _ _ h; exact absurd rfl h
      · intro x _ hu _ r hr
        subst hD
        simp only [List.mem_singleton] at hr
        subst hr
        exact hu
    · rw [h1] at h; cases h
    · rw [h1] at h; cases h
  · exact .cons (.leaf (by omega) rfl (gl _ _ _ _ _ _)) .nil
  · exact guardOK_noDivs _ _ _ _ _ _ _ _ rfl (by decide) (by decide) (by decide)
  · generalize hD : (⟨1, [], [⟨false, [1, 0], -2⟩, ⟨false, [-1, 0], 3⟩]⟩ : Dom) = E
    have h1 : E.definingEquality E.rows (1 - 1) = none := by subst hD; decide
    have h2 : E.definingInequalities ClastExec.exC.nm.nPar E.rows (1 - 1) = none := by subst hD; decide
    refine ⟨fun u h => ?_, fun _ u l h => ?_, fun _ _ => ?_⟩
    · rw [h1] at h; cases h
    · rw [h2] at h; cases h
    · subst hD
      refine ⟨by decide, by decide, ?_, ?_, by simp, by simp, by simp, by simp⟩
      · intro r hr _ _ c hc hz
        have hl := Row.at_lt r c hz
        have hlen : ∀ r ∈ [(⟨false, [1, 0], -2⟩ : Bound.Row), ⟨false, [-1, 0], 3⟩], r.coef.length = 2 ∧ r.at 1 = 0 := by
          decide
        have := hlen r hr
        obtain rfl : c = 1 := by omega
        exact absurd this.2 hz
      · intro x _ _ h r hr
        refine h r hr ?_
        revert r
        decide
  · exact .cons (.leaf (by omega) rfl (gl _ _ _ _ _ _)) (.cons (.leaf (by omega) rfl (gl _ _ _ _ _ _)) .nil)

theorem code_one (x : Pt) : BoxDom.code 1 x = [BoxDom.clamp (x 0)] := by
  simp [BoxDom.code, List.range_succ]

theorem exFaithful (v : Nat → Int) :
    Faithfuls BoxDom.ops BoxDom.mem BoxDom.strideOk 1 exView exVs () v 0 exDs := by
  have hm1 : ∀ x, (⟨1, [], [⟨true, [-1, 0], 1⟩]⟩ : Dom).mem x v ↔
      BoxDom.mem ⟨1, [[[1]]]⟩ ((), x) := by
    intro x
    simp only [BoxDom.mem, code_one, BoxDom.BD.all]
    simp [Dom.mem, Bound.Row.holds, Bound.Row.val, Bound.dotFrom, Dom.pt]
    unfold BoxDom.clamp
    omega
  have hm2 : ∀ x, (⟨1, [], [⟨false, [1, 0], -2⟩, ⟨false, [-1, 0], 3⟩]⟩ : Dom).mem x v ↔
      BoxDom.mem ⟨1, [[[2], [3]]]⟩ ((), x) := by
    intro x
    simp only [BoxDom.mem, code_one, BoxDom.BD.all]
    simp [Dom.mem, Bound.Row.holds, Bound.Row.val, Bound.dotFrom, Dom.pt]
    unfold BoxDom.clamp
    omega
  have hm3 : ∀ x, (⟨1, [], []⟩ : Dom).mem x v ↔
      BoxDom.mem ⟨1, [[[0], [1], [2], [3], [4]]]⟩ ((), x) := by
    intro x
    simp only [BoxDom.mem, code_one, BoxDom.BD.all]
    simp [Dom.mem]
    unfold BoxDom.clamp
    omega
  have hm0 : ∀ x, (⟨0, [], []⟩ : Dom).mem x v ↔ BoxDom.mem ⟨0, [[[]]]⟩ ((), x) := by
    intro x
    simp [Dom.mem, BoxDom.mem, BoxDom.code, BoxDom.BD.all]
  have hs : ∀ (L : Nat) (s : Int × Int), (none : Option (Int × Int)) = some s → ∀ x : Pt,
      ClastGen.strideOk (some (exVs s)) (L - 1) 1 x v ↔ BoxDom.strideOk L s ((), x) :=
    fun _ _ h => by cases h
  unfold exDs
  simp only [Faithfuls, Faithful]
  exact ⟨⟨rfl, hm0, hs 0, ⟨rfl, hm1, hs 1, ⟨rfl, hm3, hs 2, trivial⟩, trivial⟩,
    ⟨rfl, hm2, hs 1, ⟨rfl, hm3, hs 2, trivial⟩, ⟨rfl, hm3, hs 2, trivial⟩, trivial⟩, trivial⟩, trivial⟩

open Verif.ClastGen Verif.Clast Verif.PPrint Verif.CText Verif.PStmt in
/-- All hypotheses of `C58_text_partial` hold for the two statements; the text is the expected one, and
its only trace has the instance of the second statement at `i = 3`. -/
example (env : Env) : ∃ ss tr prog,
    clastCreate ClastExec.exC gmpCmp (toLoops exView exVs exDs) = some ss ∧
    text (printStmts PPrint.exStmt 0 ss) =
      "S00(1);\nfor (i=2;i<=3;i++) {\n  S00(i);\n  S000(i);\n}\n".toList ∧
    (⟨⟨[2], []⟩, [3]⟩ : Inst) ∈ tr ∧
    Props.PPrint.Program (text (printStmts PPrint.exStmt 0 ss)) prog ∧
    ∃ env', Run prog env ((calls 0 tr).map (ev PPrint.exStmt)) env' := by
  have hB : StmtsOK BoxDom.ops (isScal Generate.exC.scaldims) exB := by
    refine ⟨by decide, by decide, by decide, by decide, ?_, by decide⟩
    intro a b c h
    have := h.length_le
    simp [exB] at this
  have hw : WFScal Generate.exC.scaldims := by intro i n hi; simp [Generate.exC] at hi
  have ho : OptBase Generate.exC.opt Generate.exC.scaldims.length :=
    ⟨by decide, by decide, by simp [Generate.exC], by decide, by decide⟩
  have hn : NoLast Generate.exC.opt := ⟨by decide, Or.inl rfl⟩
  have hT : ((generateS BoxDom.ops Generate.exC 20 exB (box 0 [[]]) 0 0).map (insides 0)) = some true := by
    decide +kernel
  obtain ⟨T, hT, hi⟩ := Option.map_eq_some_iff.1 hT
  have hds : (generateS BoxDom.ops Generate.exC 20 exB (box 0 [[]]) 0 0).bind
      (fun T => simplify BoxDom.ops 20 T (box 0 [[]])) = some exDs := by rfl
  rw [hT, Option.bind_some] at hds
  have hcl : clastCreate ClastExec.exC gmpCmp (toLoops exView exVs exDs) = some
      [.user 1 [.cst 1], .for_ "i" (some (.red .max [.cst 2])) (some (.red .min [.cst 3])) 1
        [.user 1 [.term 1 (.name "i")], .user 2 [.term 1 (.name "i")]]] := by rfl
  obtain ⟨tr, h1, _, _, prog, h2, h3, _⟩ := C58_text_partial box_laws box_conv box_strides hw ho hn rfl hB hT
    hds () (fun x => by unfold BoxDom.mem; simp [box, BoxDom.code, BoxDom.BD.all])
    (insides_finite BoxDom.strideOk T 0 hi) ClastExec.exC exView exVs (fun _ => env "N") (exFaithful _)
    PPrint.exStmt PPrint.exStmt_ok PPrint.exC_print ClastExec.exN_ok gmpCmp (by decide)
    (by rw [exTree_eq]; exact exTree_wf _) _ hcl 0 env (fun _ _ => rfl)
  refine ⟨_, tr, prog, hcl, by decide +kernel, (h1 _).2 ⟨_, by simp [exB]; exact Or.inr rfl, fun _ => 3, ?_,
    rfl, ?_⟩, h2, h3⟩
  · unfold BoxDom.mem; decide
  · decide

end Verif.Props.Pipeline
