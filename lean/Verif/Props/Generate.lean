import Verif.Lemmas.GenMain
import Verif.Lemmas.GenMono
import Verif.Lemmas.BoxDom

/-!
# C24: the generated loop tree executes every instance once, in schedule order

The specification: the list of instances executed by the tree (`TraceLoops`) contains exactly the
instances of the statements whose points lie in the context, none of them twice, in lexicographic order
of their time stamps (`timeOf`), ties in the order of the statements in the input.
-/

namespace Verif.Props.Generate

open Verif.Loop Verif.Gen Verif.ScalarSort Verif.Props.ScalarSort

variable {D S C Par : Type}

/-- Specification: `e` is executed before `f`, for time stamps that are compared up to the end of the
shorter one and the order `ord` of the statements. -/
def Earlier (flags : List Bool) (ord : Block → Block → Prop) (e f : Inst) : Prop :=
  lexCmp (timeOf flags e) (timeOf flags f) = .lt ∨
    (lexCmp (timeOf flags e) (timeOf flags f) = .eq ∧ ord e.block f.block)

/-- Specification: `u` is the block of a statement before that of `v` in the list. -/
def StmtBefore (B : List (Loop D S)) (u v : Block) : Prop :=
  ∃ i j : Nat, ∃ a b : Loop D S, i < j ∧ B[i]? = some a ∧ B[j]? = some b ∧
    a.block = some u ∧ b.block = some v

/-! ## The order satisfies the laws of the recursion -/

/-- The time stamp from level `L` and scalar position `s` on. -/
def rest (flags : List Bool) (L s : Nat) (e : Inst) : List Int :=
  interleave (scalF e.block) (flags.drop (L - 1 + s)) s (e.args.drop (L - 1))

/-- The order from level `L` and scalar position `s` on. -/
def Rest (flags : List Bool) (ord : Block → Block → Prop) (L s : Nat) (e f : Inst) : Prop :=
  lexCmp (rest flags L s e) (rest flags L s f) = .lt ∨
    (lexCmp (rest flags L s e) (rest flags L s f) = .eq ∧ ord e.block f.block)

theorem rest_value {flags : List Bool} {L s : Nat} {e : Inst} (h0 : 0 < L)
    (hc : levelIsConstant L s flags = false) (hl : L ≤ e.args.length) :
    rest flags L s e = e.args.getD (L - 1) 0 :: rest flags (L + 1) s e := by
  have ha : e.args.drop (L - 1) = e.args.getD (L - 1) 0 :: e.args.drop L := by
    rw [List.drop_eq_getElem_cons (by omega), List.getD_eq_getElem?_getD,
      List.getElem?_eq_getElem (by omega), Option.getD_some, show L - 1 + 1 = L by omega]
  unfold rest
  rw [ha, show L + 1 - 1 = L by omega]
  by_cases hf : L - 1 + s < flags.length
  · have hfl : flags[L - 1 + s] = false := by
      unfold levelIsConstant at hc
      simp only [Bool.and_eq_false_iff, decide_eq_false_iff_not] at hc
      rcases hc with (hc | hc) | hc
      · omega
      · omega
      · rw [List.getD_eq_getElem?_getD, show L + s - 1 = L - 1 + s by omega,
          List.getElem?_eq_getElem hf, Option.getD_some] at hc
        exact hc
    rw [List.drop_eq_getElem_cons hf, hfl, interleave, show L - 1 + s + 1 = L + s by omega]
  · rw [List.drop_eq_nil_of_le (by omega : flags.length ≤ L - 1 + s),
      List.drop_eq_nil_of_le (by omega : flags.length ≤ L + s), interleave, interleave]

theorem rest_scal {flags : List Bool} {L s : Nat} {e : Inst} (h0 : 0 < L)
    (hf : flags[L + s - 1]? = some true) :
    rest flags L s e = scalF e.block s :: rest flags L (s + 1) e := by
  obtain ⟨hlt, hf⟩ := List.getElem?_eq_some_iff.1 hf
  have hlt' : L - 1 + s < flags.length := by omega
  have hfl : flags[L - 1 + s] = true := by
    rw [← hf]; congr 1; omega
  unfold rest
  rw [List.drop_eq_getElem_cons hlt', hfl, interleave, show L - 1 + s + 1 = L - 1 + (s + 1) by omega]

theorem lexCmp_cons_lt {a b : Int} {as bs : List Int} (h : a < b) :
    lexCmp (a :: as) (b :: bs) = .lt := by
  rw [lexCmp, if_pos h]

theorem lexCmp_cons_eq {a : Int} {as bs : List Int} :
    lexCmp (a :: as) (a :: bs) = lexCmp as bs := by
  rw [lexCmp, if_neg (by omega), if_neg (by omega)]

theorem lexCmp_self : ∀ l : List Int, lexCmp l l = .eq
  | [] => rfl
  | a :: l => by rw [lexCmp_cons_eq, lexCmp_self l]

theorem rest_run_lt {flags : List Bool} {L : Nat} {e f : Inst} (h0 : 0 < L) :
    ∀ (k s : Nat), (∀ i, i < k → flags[L + s + i - 1]? = some true) →
      LexLt s k (scalF e.block) (scalF f.block) →
      lexCmp (rest flags L s e) (rest flags L s f) = .lt := by
  intro k
  induction k with
  | zero => rintro s _ ⟨i, hi, _⟩; omega
  | succ k ih =>
    rintro s hf ⟨i, hi, hj, hlt⟩
    have h1 := hf 0 (by omega)
    rw [Nat.add_zero] at h1
    rw [rest_scal h0 h1, rest_scal h0 h1]
    cases i with
    | zero => exact lexCmp_cons_lt hlt
    | succ i =>
      have h2 := hj 0 (by omega)
      rw [Nat.add_zero] at h2
      rw [h2, lexCmp_cons_eq]
      refine ih (s + 1) (fun i hi => ?_) ⟨i, by omega, fun j hji => ?_, ?_⟩
      · rw [← hf (i + 1) (by omega)]; congr 1; omega
      · have := hj (j + 1) (by omega)
        rwa [show s + (j + 1) = s + 1 + j by omega] at this
      · rwa [show s + (i + 1) = s + 1 + i by omega] at hlt

theorem rest_run_eq {flags : List Bool} {L : Nat} {e f : Inst} (h0 : 0 < L) :
    ∀ (k s : Nat), (∀ i, i < k → flags[L + s + i - 1]? = some true) →
      LexEq s k (scalF e.block) (scalF f.block) →
      lexCmp (rest flags L s e) (rest flags L s f) =
        lexCmp (rest flags L (s + k) e) (rest flags L (s + k) f) := by
  intro k
  induction k with
  | zero => intro s _ _; rfl
  | succ k ih =>
    intro s hf hq
    have h1 := hf 0 (by omega)
    rw [Nat.add_zero] at h1
    rw [lexEq_succ] at hq
    rw [rest_scal h0 h1, rest_scal h0 h1, hq.1, lexCmp_cons_eq,
      ih (s + 1) (fun i hi => by rw [← hf (i + 1) (by omega)]; congr 1; omega) hq.2,
      show s + 1 + k = s + (k + 1) by omega]

theorem rest_laws (flags : List Bool) (ord : Block → Block → Prop) :
    RelLaws flags ord (Rest flags ord) where
  value L s e f h0 hc he hf h := by
    left
    rw [rest_value h0 hc he, rest_value h0 hc hf]
    exact lexCmp_cons_lt h
  next L s e f h0 hc he hf h hr := by
    unfold Rest at hr ⊢
    rw [rest_value h0 hc he, rest_value h0 hc hf, h, lexCmp_cons_eq]
    exact hr
  zero e f h := h
  term L s e f hl hd ho := by
    right
    refine ⟨?_, ho⟩
    unfold rest
    rw [List.drop_eq_nil_of_le (by omega), interleave, interleave]
    rcases hd with hd | hd
    · rw [List.drop_eq_nil_of_le (by omega : e.args.length ≤ L - 1), lexCmp]
    · rw [List.drop_eq_nil_of_le (by omega : f.args.length ≤ L - 1)]
      cases List.drop (L - 1) e.args <;> rfl
  scalLt L s k e f hr h := Or.inl (rest_run_lt hr.1 k s hr.2.1 h)
  scalEq L s k e f hr h hrel := by
    unfold Rest at hrel ⊢
    rw [rest_run_eq hr.1 k s hr.2.1 h]
    exact hrel

theorem rest_zero (flags : List Bool) (e : Inst) : rest flags 0 0 e = timeOf flags e := rfl

/-! ## The property -/

variable {o : DomOps D S C} {mem : D → Par × Pt → Prop}

/-- Assumptions about the statements given to `cloog_loop_generate`: every loop is a statement (a block,
no inner loops), no two have the same block, the domain of every statement has at least the dimensions
of the scattering, and the depths of the statements do not go down and up again (with a scattering that
ends with a scalar dimension: do not go up). -/
structure StmtsOK (o : DomOps D S C) (flags : List Bool) (B : List (Loop D S)) : Prop where
  inner : ∀ b ∈ B, b.inner = []
  block : ∀ b ∈ B, b.block ≠ none
  distinct : (B.map Loop.block).Nodup
  dims : ∀ b ∈ B, flags.count false ≤ o.dim b.dom
  uni : ∀ a b c, [a, b, c].Sublist (B.map (fun l => o.dim l.dom)) → a ≤ b ∨ c ≤ b
  last : flags.getLast? = some true → (B.map (fun l => o.dim l.dom)).Pairwise (fun a b => b ≤ a)

theorem stmts_keys {flags : List Bool} {B : List (Loop D S)} (h : StmtsOK o flags B) :
    KOK flags (StmtBefore B) (keys o B) where
  block k hk := by
    obtain ⟨b, hb, rfl⟩ := List.mem_map.1 hk
    exact h.block b hb
  ord := by
    unfold keys
    rw [List.pairwise_map, List.pairwise_iff_getElem]
    intro i j hi hj hij u v hu hv
    exact ⟨i, j, _, _, hij, List.getElem?_eq_getElem hi, List.getElem?_eq_getElem hj, hu, hv⟩
  uni a b c habc := by
    have := habc.map Prod.snd
    unfold keys at this
    rw [List.map_map] at this
    exact h.uni _ _ _ this
  dims k hk := by
    obtain ⟨b, hb, rfl⟩ := List.mem_map.1 hk
    exact h.dims b hb
  last hl := by
    have := h.last hl
    unfold keys
    rw [List.pairwise_map] at this ⊢
    exact this

/-- Distinct blocks: no statement is before itself. -/
theorem stmtBefore_irrefl {B : List (Loop D S)} (h : (B.map Loop.block).Nodup) (u : Block) :
    ¬ StmtBefore B u u := by
  rintro ⟨i, j, a, b, hij, ha, hb, hau, hbu⟩
  obtain ⟨hi, rfl⟩ := List.getElem?_eq_some_iff.1 ha
  obtain ⟨hj, rfl⟩ := List.getElem?_eq_some_iff.1 hb
  have := (List.nodup_iff_injective_getElem.1 h) (a₁ := ⟨i, by simpa using hi⟩)
    (a₂ := ⟨j, by simpa using hj⟩) (by simp [hau, hbu])
  simp only [Fin.mk.injEq] at this
  omega

/-- **C24** (partial: options without `-l`, `-strides`, `-stop` and per-statement levels; statements as
in `StmtsOK`; domain operations as in `GenLaws`; see `C24_last_partial` for `-l`).  Whatever loop tree is generated, an execution of it
runs exactly the instances of the statements inside the context, each once, in the order of the
scattering. -/
theorem C24_generate_partial (G : GenLaws o mem) {c : Ctx} (W : WFScal c.scaldims)
    (hopt : OptOK c.opt c.scaldims.length) (hlast : NoLast c.opt) {fuel : Nat} {B T : List (Loop D S)} {ctx : D} (hctx : o.dim ctx = 0)
    (hB : StmtsOK o (isScal c.scaldims) B) (h : generate o c fuel B ctx 0 0 = some T)
    (ok : Nat → S → Par × Pt → Prop) (p : Par) (x : Pt) {tr : List Inst}
    (htr : TraceLoops (sem o mem ok p) 0 x T tr) :
    (∀ e, e ∈ tr ↔ mem ctx (p, x) ∧ ∃ b ∈ B, ∃ y, mem b.dom (p, y) ∧ b.block = some e.block ∧
      e.args = argsOf (o.dim b.dom) y) ∧
    tr.Nodup ∧
    tr.Pairwise (Earlier (isScal c.scaldims) (StmtBefore B)) := by
  obtain ⟨h1, h2⟩ := generate_correct (ok := ok) G W hopt (rest_laws (isScal c.scaldims)
    (StmtBefore B)) (Or.inl hlast) hctx hB.inner (stmts_keys hB) h p x
  obtain ⟨t1, t2⟩ := trace_adequate htr
  have hpw : tr.Pairwise (Earlier (isScal c.scaldims) (StmtBefore B)) := by
    rw [List.pairwise_iff_forall_sublist]
    intro e f hef
    exact h2 e f ((t2 e f).1 hef)
  refine ⟨fun e => (t1 e).trans (h1 e), ?_, hpw⟩
  refine hpw.imp ?_
  rintro e f hr rfl
  rcases hr with hr | ⟨_, hr⟩
  · rw [lexCmp_self] at hr
    exact absurd hr (by simp)
  · exact stmtBefore_irrefl hB.distinct _ hr

/-! ## The last level to optimise -/

/-- Specification: the scattering part of the time stamp. -/
def scatterOf (flags : List Bool) (e : Inst) : List Int := (timeOf flags e).take flags.length

/-- The scattering from level `L` and scalar position `s` on. -/
def cut (flags : List Bool) (L s : Nat) (e : Inst) : List Int :=
  (rest flags L s e).take (flags.length - (L - 1 + s))

/-- The order of different instances by the scattering only. -/
def Cut (flags : List Bool) (L s : Nat) (e f : Inst) : Prop :=
  lexCmp (cut flags L s e) (cut flags L s f) = .lt ∨
    (lexCmp (cut flags L s e) (cut flags L s f) = .eq ∧ e ≠ f)

theorem cut_nil {flags : List Bool} {L s : Nat} (h : flags.length ≤ L - 1 + s) (e : Inst) :
    cut flags L s e = [] := by
  unfold cut
  rw [show flags.length - (L - 1 + s) = 0 by omega, List.take_zero]

theorem cut_value {flags : List Bool} {L s : Nat} {e : Inst} (h0 : 0 < L)
    (hc : levelIsConstant L s flags = false) (hl : L ≤ e.args.length) (h : L - 1 + s < flags.length) :
    cut flags L s e = e.args.getD (L - 1) 0 :: cut flags (L + 1) s e := by
  unfold cut
  rw [rest_value h0 hc hl,
    show flags.length - (L - 1 + s) = flags.length - (L + 1 - 1 + s) + 1 by omega,
    List.take_succ_cons]

theorem cut_scal {flags : List Bool} {L s : Nat} {e : Inst} (h0 : 0 < L)
    (hf : flags[L + s - 1]? = some true) :
    cut flags L s e = scalF e.block s :: cut flags L (s + 1) e := by
  have hlt := (List.getElem?_eq_some_iff.1 hf).1
  unfold cut
  rw [rest_scal h0 hf, show flags.length - (L - 1 + s) = flags.length - (L - 1 + (s + 1)) + 1 by omega,
    List.take_succ_cons]

theorem cut_run_lt {flags : List Bool} {L : Nat} {e f : Inst} (h0 : 0 < L) :
    ∀ (k s : Nat), (∀ i, i < k → flags[L + s + i - 1]? = some true) →
      LexLt s k (scalF e.block) (scalF f.block) →
      lexCmp (cut flags L s e) (cut flags L s f) = .lt := by
  intro k
  induction k with
  | zero => rintro s _ ⟨i, hi, _⟩; omega
  | succ k ih =>
    rintro s hf ⟨i, hi, hj, hlt⟩
    have h1 := hf 0 (by omega)
    rw [Nat.add_zero] at h1
    rw [cut_scal h0 h1, cut_scal h0 h1]
    cases i with
    | zero => exact lexCmp_cons_lt hlt
    | succ i =>
      have h2 := hj 0 (by omega)
      rw [Nat.add_zero] at h2
      rw [h2, lexCmp_cons_eq]
      refine ih (s + 1) (fun i hi => ?_) ⟨i, by omega, fun j hji => ?_, ?_⟩
      · rw [← hf (i + 1) (by omega)]; congr 1; omega
      · have := hj (j + 1) (by omega)
        rwa [show s + (j + 1) = s + 1 + j by omega] at this
      · rwa [show s + (i + 1) = s + 1 + i by omega] at hlt

theorem cut_run_eq {flags : List Bool} {L : Nat} {e f : Inst} (h0 : 0 < L) :
    ∀ (k s : Nat), (∀ i, i < k → flags[L + s + i - 1]? = some true) →
      LexEq s k (scalF e.block) (scalF f.block) →
      lexCmp (cut flags L s e) (cut flags L s f) =
        lexCmp (cut flags L (s + k) e) (cut flags L (s + k) f) := by
  intro k
  induction k with
  | zero => intro s _ _; rfl
  | succ k ih =>
    intro s hf hq
    have h1 := hf 0 (by omega)
    rw [Nat.add_zero] at h1
    rw [lexEq_succ] at hq
    rw [cut_scal h0 h1, cut_scal h0 h1, hq.1, lexCmp_cons_eq,
      ih (s + 1) (fun i hi => by rw [← hf (i + 1) (by omega)]; congr 1; omega) hq.2,
      show s + 1 + k = s + (k + 1) by omega]

theorem cut_laws (flags : List Bool) (ord : Block → Block → Prop) (hirr : ∀ u, ¬ ord u u) :
    RelLaws flags ord (Cut flags) where
  value L s e f h0 hc he hf h := by
    by_cases hl : L - 1 + s < flags.length
    · left
      rw [cut_value h0 hc he hl, cut_value h0 hc hf hl]
      exact lexCmp_cons_lt h
    · right
      rw [cut_nil (by omega), cut_nil (by omega)]
      refine ⟨rfl, ?_⟩
      rintro rfl
      omega
  next L s e f h0 hc he hf h hr := by
    unfold Cut at hr ⊢
    by_cases hl : L - 1 + s < flags.length
    · rw [cut_value h0 hc he hl, cut_value h0 hc hf hl, h, lexCmp_cons_eq]
      exact hr
    · rw [cut_nil (by omega), cut_nil (by omega)] at hr ⊢
      exact hr
  zero e f h := h
  term L s e f hl hd ho := by
    right
    rw [cut_nil (by omega), cut_nil (by omega)]
    refine ⟨rfl, ?_⟩
    rintro rfl
    exact hirr _ ho
  scalLt L s k e f hr h := Or.inl (cut_run_lt hr.1 k s hr.2.1 h)
  scalEq L s k e f hr h hrel := by
    unfold Cut at hrel ⊢
    rw [cut_run_eq hr.1 k s hr.2.1 h]
    exact hrel

theorem cut_free (flags : List Bool) : Free flags (Cut flags) := by
  intro L s e f h hef
  right
  rw [cut_nil (by omega), cut_nil (by omega)]
  exact ⟨rfl, hef⟩

/-- **C24** with `-l` (and statement-wise levels), partial in the same sense: if the last level to
optimise is not inside the scattering, an execution of the generated tree runs exactly the instances of
the statements inside the context, each once, in the order of the scattering.  Instances with the same
scattering may come in any order (documented for `-l`). -/
theorem C24_last_partial (G : GenLaws o mem) {c : Ctx} (W : WFScal c.scaldims)
    (hopt : OptOK c.opt c.scaldims.length) {fuel : Nat} {B T : List (Loop D S)} {ctx : D}
    (hctx : o.dim ctx = 0) (hB : StmtsOK o (isScal c.scaldims) B)
    (h : generate o c fuel B ctx 0 0 = some T)
    (ok : Nat → S → Par × Pt → Prop) (p : Par) (x : Pt) {tr : List Inst}
    (htr : TraceLoops (sem o mem ok p) 0 x T tr) :
    (∀ e, e ∈ tr ↔ mem ctx (p, x) ∧ ∃ b ∈ B, ∃ y, mem b.dom (p, y) ∧ b.block = some e.block ∧
      e.args = argsOf (o.dim b.dom) y) ∧
    tr.Nodup ∧
    tr.Pairwise (fun e f => lexCmp (scatterOf (isScal c.scaldims) e)
      (scatterOf (isScal c.scaldims) f) ≠ .gt) := by
  obtain ⟨h1, h2⟩ := generate_correct (ok := ok) G W hopt
    (cut_laws (isScal c.scaldims) (StmtBefore B) (stmtBefore_irrefl hB.distinct))
    (Or.inr ⟨cut_free _, stmtBefore_irrefl hB.distinct⟩) hctx hB.inner (stmts_keys hB) h p x
  obtain ⟨t1, t2⟩ := trace_adequate htr
  have hpw : tr.Pairwise (Cut (isScal c.scaldims) 0 0) := by
    rw [List.pairwise_iff_forall_sublist]
    intro e f hef
    exact h2 e f ((t2 e f).1 hef)
  refine ⟨fun e => (t1 e).trans (h1 e), hpw.imp ?_, hpw.imp ?_⟩
  · rintro e f hr rfl
    rcases hr with hr | ⟨_, hr⟩
    · rw [lexCmp_self] at hr
      exact absurd hr (by simp)
    · exact hr rfl
  · intro e f hr
    have hs : ∀ e, cut (isScal c.scaldims) 0 0 e = scatterOf (isScal c.scaldims) e := fun e => rfl
    unfold Cut at hr
    rw [hs, hs] at hr
    rcases hr with hr | ⟨hr, _⟩ <;> rw [hr] <;> simp

/-! ## Strides -/

section Strides

instance decSameStrides [DecidableEq S] (o : DomOps D S C) :
    ∀ (ls : List (Loop D S)) (d : D) (st : Option S), Decidable (SameStrides o d st ls)
  | [], _, _ => isTrue trivial
  | b :: ls, d, st => by
    rw [SameStrides]
    have := decSameStrides o ls d st
    have := decSameStrides o ls b.dom b.stride
    infer_instance

instance [DecidableEq S] (o : DomOps D S C) : ∀ ls : List (Loop D S), Decidable (SameStridesL o ls)
  | [] => isTrue trivial
  | a :: ls => decSameStrides o ls a.dom a.stride

variable [DecidableEq S]

/-- `cloog_loop_combine` when loops that are merged have the same stride (or the first of them none);
it keeps the stride of the first of them (`source/loop.c:797-813`). -/
def combineS (o : DomOps D S C) (T : List (Loop D S)) : Option (List (Loop D S)) :=
  if SameStridesL o T then some (combine o T) else none

/-- `cloog_loop_generate` (`source/loop.c:2642-2654`), undefined if loops with different strides are
merged. -/
def generateS (o : DomOps D S C) (c : Ctx) :
    Nat → List (Loop D S) → D → Nat → Nat → Option (List (Loop D S)) :=
  generateC o (combineS o) c

/-- Where it is defined, this is the generation of the model. -/
theorem generateS_generate {c : Ctx} {fuel : Nat} {B T : List (Loop D S)} {ctx : D} {L s : Nat}
    (h : generateS o c fuel B ctx L s = some T) : generate o c fuel B ctx L s = some T := by
  rw [← generateC_eq]
  refine generateC_le (fun l r hr => ?_) fuel B ctx L s T h
  unfold combineS at hr
  split at hr
  · exact hr
  · exact absurd hr (by simp)

theorem combineS_ok (opt : Options) : CombOK o opt (combineS o) := by
  intro T T' h _
  unfold combineS at h
  split at h
  · rename_i hs
    exact ⟨(Option.some.inj h).symm, hs⟩
  · exact absurd h (by simp)

/-- **C24** with `-strides` (partial: no `-stop`, `-l` not inside the scattering, statements as in
`StmtsOK`, domain operations as in `GenLaws` and `StrideLaws`, and merged loops have the same stride).
Whatever loop tree is generated, strided loops included, an execution of it runs exactly the instances
of the statements inside the context, each once, in the order of the scattering; instances with the
same scattering come in textual order unless `-l` is used. -/
theorem C24_strides_partial (G : GenLaws o mem) {ok : Nat → S → Par × Pt → Prop}
    (K : StrideLaws o mem ok) {c : Ctx} (W : WFScal c.scaldims)
    (hopt : OptBase c.opt c.scaldims.length) {fuel : Nat} {B T : List (Loop D S)} {ctx : D}
    (hctx : o.dim ctx = 0) (hB : StmtsOK o (isScal c.scaldims) B)
    (h : generateS o c fuel B ctx 0 0 = some T) (p : Par) (x : Pt) {tr : List Inst} (htr : TraceLoops (sem o mem ok p) 0 x T tr) :
    (∀ e, e ∈ tr ↔ mem ctx (p, x) ∧ ∃ b ∈ B, ∃ y, mem b.dom (p, y) ∧ b.block = some e.block ∧
      e.args = argsOf (o.dim b.dom) y) ∧
    tr.Nodup ∧
    tr.Pairwise (fun e f => lexCmp (scatterOf (isScal c.scaldims) e)
      (scatterOf (isScal c.scaldims) f) ≠ .gt) ∧
    (NoLast c.opt → tr.Pairwise (Earlier (isScal c.scaldims) (StmtBefore B))) := by
  obtain ⟨t1, t2⟩ := trace_adequate htr
  obtain ⟨h1, h2⟩ := generateC_correct (ok := ok) G W hopt (fun _ => K)
    (cut_laws (isScal c.scaldims) (StmtBefore B) (stmtBefore_irrefl hB.distinct))
    (Or.inr ⟨cut_free _, stmtBefore_irrefl hB.distinct⟩) (combineS_ok c.opt) hctx hB.inner
    (stmts_keys hB) h p x
  have hpw : tr.Pairwise (Cut (isScal c.scaldims) 0 0) := by
    rw [List.pairwise_iff_forall_sublist]
    intro e f hef
    exact h2 e f ((t2 e f).1 hef)
  refine ⟨fun e => (t1 e).trans (h1 e), hpw.imp ?_, hpw.imp ?_, fun hlast => ?_⟩
  · rintro e f hr rfl
    rcases hr with hr | ⟨_, hr⟩
    · rw [lexCmp_self] at hr
      exact absurd hr (by simp)
    · exact hr rfl
  · intro e f hr
    have hs : ∀ e, cut (isScal c.scaldims) 0 0 e = scatterOf (isScal c.scaldims) e := fun e => rfl
    unfold Cut at hr
    rw [hs, hs] at hr
    rcases hr with hr | ⟨hr, _⟩ <;> rw [hr] <;> simp
  · obtain ⟨_, h3⟩ := generateC_correct (ok := ok) G W hopt (fun _ => K) (rest_laws
      (isScal c.scaldims) (StmtBefore B)) (Or.inl hlast) (combineS_ok c.opt) hctx hB.inner
      (stmts_keys hB) h p x
    rw [List.pairwise_iff_forall_sublist]
    intro e f hef
    exact h3 e f ((t2 e f).1 hef)

end Strides

/-! ## Executions exist -/

mutual
/-- Every loop that scans a level has finitely many values there, at any values of the outer
iterators. -/
def FiniteLoop (m : Sem D S) : Nat → Loop D S → Prop
  | L, .mk d _ _ _ inner =>
    (0 < L ∧ L ≤ m.dim d → ∀ x, ∃ a n : Int, ∀ v, m.mem d (setAt x L v) → a ≤ v ∧ v < a + n) ∧
      FiniteLoops m (L + 1) inner
/-- The same for lists. -/
def FiniteLoops (m : Sem D S) : Nat → List (Loop D S) → Prop
  | _, [] => True
  | L, l :: ls => FiniteLoop m L l ∧ FiniteLoops m L ls
end

theorem visits_list {m : Sem D S} {L : Nat} {d : D} (x : Pt) (st : Option S)
    (h : 0 < L ∧ L ≤ m.dim d → ∀ x, ∃ a n : Int, ∀ v, m.mem d (setAt x L v) → a ≤ v ∧ v < a + n) :
    ∃ ys : List Pt, (∀ y, y ∈ ys ↔ Visits m L x d st y) ∧
      ys.Pairwise (fun y z => y (L - 1) < z (L - 1)) := by
  classical
  by_cases hd : 0 < L ∧ L ≤ m.dim d
  · obtain ⟨a, n, hb⟩ := h hd x
    refine ⟨((List.range n.toNat).map (fun k : Nat => setAt x L (a + k))).filter
      (fun y => decide (Visits m L x d st y)), fun y => ?_, ?_⟩
    · rw [List.mem_filter, decide_eq_true_iff, and_iff_right_iff_imp]
      intro hv
      unfold Visits at hv
      rw [if_pos hd] at hv
      obtain ⟨⟨v, rfl⟩, hm, _⟩ := hv
      have := hb v hm
      refine List.mem_map.2 ⟨(v - a).toNat, List.mem_range.2 (by omega), ?_⟩
      rw [show a + ((v - a).toNat : Int) = v by omega]
    · refine List.Pairwise.filter _ ?_
      rw [List.pairwise_map]
      refine List.pairwise_lt_range.imp ?_
      intro i j hij
      rw [setAt_same, setAt_same]
      omega
  · by_cases hm : m.mem d x
    · refine ⟨[x], fun y => ?_, by simp⟩
      unfold Visits
      rw [if_neg hd, List.mem_singleton]
      exact ⟨fun h => by rw [h]; exact ⟨rfl, hm⟩, fun h => h.1⟩
    · refine ⟨[], fun y => ?_, by simp⟩
      unfold Visits
      rw [if_neg hd]
      simp only [List.not_mem_nil, false_iff]
      rintro ⟨rfl, h⟩
      exact hm h

/-- A tree with finite loops has an execution. -/
theorem trace_exists {m : Sem D S} (ls : List (Loop D S)) :
    ∀ (L : Nat) (x : Pt), FiniteLoops m L ls → ∃ tr, TraceLoops m L x ls tr := by
  refine Loop.rec_1 (D := D) (S := S)
    (motive_1 := fun l => ∀ (L : Nat) (x : Pt), FiniteLoop m L l → ∃ tr, TraceLoop m L x l tr)
    (motive_2 := fun ls => ∀ (L : Nat) (x : Pt), FiniteLoops m L ls → ∃ tr, TraceLoops m L x ls tr)
    ?_ ?_ ?_ ls
  · intro d ot st b inner ih L x h
    rw [FiniteLoop] at h
    obtain ⟨ys, h1, h2⟩ := visits_list (m := m) (L := L) (d := d) x st h.1
    have hp : ∀ ys : List Pt, ∃ tr, TracePoints m L d b inner ys tr := by
      intro ys
      induction ys with
      | nil => exact ⟨[], .nil⟩
      | cons y ys ihy =>
        obtain ⟨t, ht⟩ := ih (L + 1) y h.2
        obtain ⟨tr, htr⟩ := ihy
        exact ⟨_, .cons ht htr⟩
    obtain ⟨tr, htr⟩ := hp ys
    exact ⟨tr, .mk h1 h2 htr⟩
  · intro L x _
    exact ⟨[], .nil⟩
  · intro l ls ih1 ih2 L x h
    rw [FiniteLoops] at h
    obtain ⟨t, ht⟩ := ih1 L x h.1
    obtain ⟨tr, htr⟩ := ih2 L x h.2
    exact ⟨_, .cons ht htr⟩

/-! ## Concrete inputs -/

section Examples
open Verif.BoxDom

/-- A domain with one part. -/
def box (n : Nat) (vs : List (List Int)) : BD := ⟨n, [vs]⟩

/-- A statement. -/
def stmt (n : Nat) (scal : List Int) (d : BD) : Loop BD (Int × Int) :=
  .mk d false none (some ⟨[n], scal⟩) []

mutual
/-- The values of the level stay away from the ends of the clamped range. -/
def inside : Nat → Loop BD (Int × Int) → Bool
  | L, .mk d _ _ _ inner =>
    (decide (L = 0) || !decide (L ≤ d.dim) ||
      d.all.all (fun v => decide (0 < v.getD (L - 1) 0) && decide (v.getD (L - 1) 0 < 4))) &&
      insides (L + 1) inner
/-- The same for lists. -/
def insides : Nat → List (Loop BD (Int × Int)) → Bool
  | _, [] => true
  | L, l :: ls => inside L l && insides L ls
end

theorem insides_finite (ok : Nat → Int × Int → Unit × Pt → Prop) (ls : List (Loop BD (Int × Int))) : ∀ L : Nat,
    insides L ls = true → FiniteLoops (sem ops BoxDom.mem ok ()) L ls := by
  refine Loop.rec_1 (D := BD) (S := Int × Int)
    (motive_1 := fun l => ∀ L : Nat, inside L l = true →
      FiniteLoop (sem ops BoxDom.mem ok ()) L l)
    (motive_2 := fun ls => ∀ L : Nat, insides L ls = true →
      FiniteLoops (sem ops BoxDom.mem ok ()) L ls) ?_ ?_ ?_ ls
  · intro d ot st b inner ih L h
    rw [inside, Bool.and_eq_true] at h
    rw [FiniteLoop]
    refine ⟨fun hd x => ⟨1, 3, fun v hm => ?_⟩, ih (L + 1) h.2⟩
    have hd2 : L ≤ d.dim := hd.2
    have h1 := h.1
    simp only [Bool.or_eq_true, decide_eq_true_eq, Bool.not_eq_true', decide_eq_false_iff_not,
      List.all_eq_true, Bool.and_eq_true] at h1
    rcases h1 with (h1 | h1) | h1
    · omega
    · omega
    · have := h1 _ hm
      rw [code_getD (by omega)] at this
      simp only [setAt_same] at this
      unfold clamp at this
      omega
  · intro L _
    rw [FiniteLoops]
    trivial
  · intro l ls ih1 ih2 L h
    rw [insides, Bool.and_eq_true] at h
    rw [FiniteLoops]
    exact ⟨ih1 L h.1, ih2 L h.2⟩

/-- Two statements of different depth without scattering: `1 ≤ i ≤ 3` and `(2,1), (2,2), (3,1)`. -/
def exB : List (Loop BD (Int × Int)) :=
  [stmt 1 [] (box 1 [[1], [2], [3]]), stmt 2 [] (box 2 [[2, 1], [2, 2], [3, 1]])]

/-- No scattering, default options. -/
def exC : Ctx := ⟨{}, []⟩

/-- Two statements with the scattering `(i, k, j)` where `k` is 1 for the first and 0 for the second. -/
def exB' : List (Loop BD (Int × Int)) :=
  [stmt 1 [1] (box 2 [[1, 1], [2, 1]]), stmt 2 [0] (box 2 [[2, 1], [2, 2], [3, 1]])]

/-- A scalar dimension between two others, with `-backtrack` and separation from level 2 on. -/
def exC' : Ctx := ⟨{ f := 2, backtrack := true }, [0, 1, 0]⟩

theorem exC'_wf : WFScal exC'.scaldims := by
  intro i n hi hn
  match i, hi with
  | 0, hi => simp [exC'] at hi; omega
  | 1, hi =>
    simp [exC'] at hi
    subst hi
    refine ⟨fun k hk => ?_, by decide⟩
    obtain rfl : k = 0 := by omega
    decide
  | 2, hi => simp [exC'] at hi; omega
  | i + 3, hi => simp [exC'] at hi

/-- The hypotheses of C24 hold for both inputs, a tree is generated and can be executed. -/
example : StmtsOK ops (isScal exC.scaldims) exB ∧ WFScal exC.scaldims ∧ OptOK exC.opt exC.scaldims.length ∧ NoLast exC.opt ∧
    ∃ T tr, generate ops exC 20 exB (box 0 [[]]) 0 0 = some T ∧
      TraceLoops (sem ops BoxDom.mem (fun _ _ _ => True) ()) 0 (fun _ => 0) T tr ∧
      (⟨⟨[2], []⟩, [2, 2]⟩ : Inst) ∈ tr := by
  have hs : StmtsOK ops (isScal exC.scaldims) exB := by
    refine ⟨by decide, by decide, by decide, by decide, ?_, by decide⟩
    intro a b c h
    have := h.length_le
    simp [exB] at this
  have hw : WFScal exC.scaldims := by intro i n hi; simp [exC] at hi
  have ho : OptOK exC.opt exC.scaldims.length :=
    ⟨⟨by decide, by decide, by simp [exC], by decide, by decide⟩, rfl⟩
  have hn : NoLast exC.opt := ⟨by decide, Or.inl rfl⟩
  have hT : ((generate ops exC 20 exB (box 0 [[]]) 0 0).map (insides 0)) = some true := by
    decide +kernel
  obtain ⟨T, hT, hi⟩ := Option.map_eq_some_iff.1 hT
  obtain ⟨tr, htr⟩ := trace_exists T 0 (fun _ => 0) (insides_finite (fun _ _ _ => True) T 0 hi)
  refine ⟨hs, hw, ho, hn, T, tr, hT, htr, ?_⟩
  refine ((C24_generate_partial laws hw ho hn rfl hs hT _ () _ htr).1 _).2
    ⟨by unfold BoxDom.mem; decide, _, by simp [exB]; exact Or.inr rfl, fun _ => 2, ?_, rfl, ?_⟩
  · unfold BoxDom.mem; decide
  · decide

example : StmtsOK ops (isScal exC'.scaldims) exB' ∧ OptOK exC'.opt exC'.scaldims.length ∧
    ∃ T tr, generate ops exC' 20 exB' (box 0 [[]]) 0 0 = some T ∧
      TraceLoops (sem ops BoxDom.mem (fun _ _ _ => True) ()) 0 (fun _ => 0) T tr ∧ tr.Nodup := by
  have hs : StmtsOK ops (isScal exC'.scaldims) exB' := by
    refine ⟨by decide, by decide, by decide, by decide, ?_, by decide⟩
    intro a b c h
    have := h.length_le
    simp [exB'] at this
  have ho : OptOK exC'.opt exC'.scaldims.length :=
    ⟨⟨by decide, by decide, by simp [exC'], by decide, by decide⟩, rfl⟩
  have hT : ((generate ops exC' 20 exB' (box 0 [[]]) 0 0).map (insides 0)) = some true := by
    decide +kernel
  obtain ⟨T, hT, hi⟩ := Option.map_eq_some_iff.1 hT
  obtain ⟨tr, htr⟩ := trace_exists T 0 (fun _ => 0) (insides_finite (fun _ _ _ => True) T 0 hi)
  exact ⟨hs, ho, T, tr, hT, htr, (C24_generate_partial laws exC'_wf ho ⟨by decide, Or.inl rfl⟩ rfl hs hT _ () _ htr).2.1⟩

/-- The same statements with `-l 3`. -/
def exL : Ctx := ⟨{ l := 3 }, [0, 1, 0]⟩

example : OptOK exL.opt exL.scaldims.length ∧ ¬ NoLast exL.opt ∧
    ∃ T tr, generate ops exL 20 exB' (box 0 [[]]) 0 0 = some T ∧
      TraceLoops (sem ops BoxDom.mem (fun _ _ _ => True) ()) 0 (fun _ => 0) T tr ∧
      (⟨⟨[2], [0]⟩, [2, 2]⟩ : Inst) ∈ tr := by
  have hs : StmtsOK ops (isScal exL.scaldims) exB' := by
    refine ⟨by decide, by decide, by decide, by decide, ?_, by decide⟩
    intro a b c h
    have := h.length_le
    simp [exB'] at this
  have ho : OptOK exL.opt exL.scaldims.length :=
    ⟨⟨by decide, by decide, by simp [exL], by decide, by decide⟩, rfl⟩
  have hT : ((generate ops exL 20 exB' (box 0 [[]]) 0 0).map (insides 0)) = some true := by
    decide +kernel
  obtain ⟨T, hT, hi⟩ := Option.map_eq_some_iff.1 hT
  obtain ⟨tr, htr⟩ := trace_exists T 0 (fun _ => 0) (insides_finite (fun _ _ _ => True) T 0 hi)
  refine ⟨ho, fun h => absurd h.1 (by decide), T, tr, hT, htr, ?_⟩
  refine ((C24_last_partial (c := exL) laws exC'_wf ho rfl hs hT _ () _ htr).1 _).2
    ⟨by unfold BoxDom.mem; decide, _, by simp [exB']; exact Or.inr rfl, fun _ => 2, ?_, rfl, ?_⟩
  · unfold BoxDom.mem; decide
  · decide

/-- One statement over the odd numbers 1 and 3 and a second one over `(1,1), (1,3), (3,1)`. -/
def exStr : List (Loop BD (Int × Int)) :=
  [stmt 1 [] (box 1 [[1], [3]]), stmt 2 [] (box 2 [[1, 1], [1, 3], [3, 1]])]

/-- `-strides`. -/
def exCS : Ctx := ⟨{ strides := true }, []⟩

mutual
/-- The strides of a tree. -/
def strideList : Loop BD (Int × Int) → List (Int × Int)
  | .mk _ _ st _ inner => st.toList ++ strideLists inner
/-- The same for lists. -/
def strideLists : List (Loop BD (Int × Int)) → List (Int × Int)
  | [] => []
  | l :: ls => strideList l ++ strideLists ls
end

/-- The concrete domains satisfy the assumptions on strides. -/
theorem box_strides : StrideLaws ops BoxDom.mem BoxDom.strideOk where
  congr L s p x y h0 h hx := by
    show y (L - 1) % s.1 = s.2
    rw [← h (L - 1) (by omega)]
    exact hx
  dim_lower d L s := rfl
  convex_lower d L s h := h
  lower d L s px _ h _ := h
  list ds L s _ h := by simp [ops] at h
  residue := by
    refine ⟨BoxDom.residue, fun d L => ?_, fun d L => rfl⟩
    unfold BoxDom.residue
    split
    · rename_i h
      refine ⟨by decide, fun _ => by decide, fun px hx => ?_⟩
      have := List.all_eq_true.1 h.2.2 _ hx
      rw [code_getD (by omega)] at this
      simp only [Bool.or_eq_true, beq_iff_eq] at this
      unfold clamp at this
      show (2 : Int) ∣ px.2 (L - 1) - 1
      omega
    · exact ⟨by decide, fun _ => by decide, fun px _ => by simp⟩
  const L s off px _ _ _ _ h := h

example : StmtsOK ops (isScal exCS.scaldims) exStr ∧ OptBase exCS.opt exCS.scaldims.length ∧
    ∃ T tr, generateS ops exCS 20 exStr (box 0 [[]]) 0 0 = some T ∧
      (2, 1) ∈ strideLists T ∧
      TraceLoops (sem ops BoxDom.mem BoxDom.strideOk ()) 0 (fun _ => 0) T tr ∧
      (⟨⟨[2], []⟩, [1, 3]⟩ : Inst) ∈ tr := by
  have hs : StmtsOK ops (isScal exCS.scaldims) exStr := by
    refine ⟨by decide, by decide, by decide, by decide, ?_, by decide⟩
    intro a b c h
    have := h.length_le
    simp [exStr] at this
  have hw : WFScal exCS.scaldims := by intro i n hi; simp [exCS] at hi
  have ho : OptBase exCS.opt exCS.scaldims.length :=
    ⟨by decide, by decide, by simp [exCS], by decide, by decide⟩
  have hT : ((generateS ops exCS 20 exStr (box 0 [[]]) 0 0).map
      (fun T => insides 0 T && decide ((2, 1) ∈ strideLists T))) = some true := by
    decide +kernel
  obtain ⟨T, hT, hi⟩ := Option.map_eq_some_iff.1 hT
  rw [Bool.and_eq_true, decide_eq_true_eq] at hi
  obtain ⟨tr, htr⟩ := trace_exists T 0 (fun _ => 0) (insides_finite BoxDom.strideOk T 0 hi.1)
  refine ⟨hs, ho, T, tr, hT, hi.2, htr, ?_⟩
  refine ((C24_strides_partial laws box_strides hw ho rfl hs hT () _ htr).1 _).2
    ⟨by unfold BoxDom.mem; decide, _, by simp [exStr]; exact Or.inr rfl,
      fun i => if i = 0 then 1 else 3, ?_, rfl, ?_⟩
  · unfold BoxDom.mem; decide
  · decide

/-! ## What is false -/

mutual
/-- Does a block with these statements occur in the tree? -/
def occurs (n : List Nat) : Loop BD (Int × Int) → Bool
  | .mk _ _ _ b inner => b.any (fun k => decide (k.stmts = n)) || occursL n inner
/-- The same for lists. -/
def occursL (n : List Nat) : List (Loop BD (Int × Int)) → Bool
  | [] => false
  | l :: ls => occurs n l || occursL n ls
end

theorem occursL_of_has {m : Sem BD (Int × Int)} (ls : List (Loop BD (Int × Int))) : ∀ (L : Nat) (x : Pt) (e : Inst),
    hasLoops m L x ls e → occursL e.block.stmts ls = true := by
  refine Loop.rec_1 (D := BD) (S := Int × Int)
    (motive_1 := fun l => ∀ (L : Nat) (x : Pt) (e : Inst), hasLoop m L x l e →
      occurs e.block.stmts l = true)
    (motive_2 := fun ls => ∀ (L : Nat) (x : Pt) (e : Inst), hasLoops m L x ls e →
      occursL e.block.stmts ls = true) ?_ ?_ ?_ ls
  · intro d ot st b inner ih L x e h
    rw [hasLoop_mk] at h
    obtain ⟨y, _, h | h⟩ := h
    · rw [occurs, h.1]; simp
    · rw [occurs, ih _ _ _ h, Bool.or_true]
  · intro L x e h
    simp [hasLoops] at h
  · intro l ls ih1 ih2 L x e h
    rw [hasLoops] at h
    rw [occursL]
    rcases h with h | h
    · rw [ih1 _ _ _ h, Bool.true_or]
    · rw [ih2 _ _ _ h, Bool.or_true]

/-- A statement without iterators, one with an iterator and the same scalar, and a third with the next
scalar: `StmtsOK.last` does not hold. -/
def dropB : List (Loop BD (Int × Int)) :=
  [stmt 1 [0] (box 0 [[]]), stmt 2 [0] (box 1 [[1], [2]]), stmt 3 [1] (box 1 [[1]])]

/-- One scalar dimension. -/
def dropC : Ctx := ⟨{}, [1]⟩

/-- **C24 is false** without the assumption `StmtsOK.last`: with one scalar scattering dimension, a
statement without iterators followed by one with an iterator at the same scalar value, and a third
statement at a later one, the second statement is lost from the generated code
(`cloog_loop_generate_scalar`, `source/loop.c:2039-2083`). -/
theorem C24_scalar_drops : ∃ T, generate ops dropC 20 dropB (box 0 [[]]) 0 0 = some T ∧
    (∃ b ∈ dropB, ∃ y, BoxDom.mem b.dom ((), y) ∧ b.block = some ⟨[2], [0]⟩) ∧
    ∀ ok x args, ¬ hasLoops (sem ops BoxDom.mem ok ()) 0 x T ⟨⟨[2], [0]⟩, args⟩ := by
  have hT : ((generate ops dropC 20 dropB (box 0 [[]]) 0 0).map (occursL [2])) = some false := by
    decide +kernel
  obtain ⟨T, hT, hi⟩ := Option.map_eq_some_iff.1 hT
  refine ⟨T, hT, ⟨_, by simp [dropB]; exact Or.inr (Or.inl rfl), fun _ => 1, ?_, rfl⟩, ?_⟩
  · unfold BoxDom.mem; decide
  · intro ok x args h
    have := occursL_of_has T _ _ _ h
    rw [hi] at this
    exact absurd this (by simp)

end Examples

end Verif.Props.Generate
