import Verif.Lemmas.GenStop
import Verif.Props.Generate

/-!
# C44: generation that stops at a level

Documentation of the option: "Loop depth to stop code generation" (`source/options.c:215`); code:
`cloog_loop_stop` (`source/loop.c:1400-1410`) and `cloog_loop_generate_restricted_or_stop`
(`source/loop.c:2602-2613`).
-/

namespace Verif.Props.Stop

open Verif.Loop Verif.Gen Verif.Props.Generate Verif.ScalarSort

variable {D S C Par : Type} {o : DomOps D S C} {mem : D → Par × Pt → Prop} {ok : Nat → S → Par × Pt → Prop}

/-! ## Specification -/

/-- `l` occurs in the tree `T`, directly inside of the loop `q` if it is not at the top. -/
inductive Occurs (T : List (Loop D S)) : Option (Loop D S) → Loop D S → Prop
  | top {l} : l ∈ T → Occurs T none l
  | sub {q p l} : Occurs T q p → l ∈ p.inner → Occurs T (some p) l

/-- The depth to stop as a number of iterators: the first `P` positions of the scattering (behind it,
all positions are iterators) end with the `n`-th iterator and `P` is at least the value `k` of the
option. -/
def StopAt (flags : List Bool) (k : Int) (n : Nat) : Prop :=
  0 ≤ k ∧ ∃ P : Nat, (flags.take P).count true + n = P ∧ (n = 0 → P = 0) ∧
    (0 < n → flags[P - 1]? ≠ some true) ∧ k ≤ P

/-- How many of the `m` iterators of a statement are kept: all if the depth to stop is not reached
before, else as many as there are when it is reached for the first time. -/
def Kept (flags : List Bool) (k : Int) (n m : Nat) : Prop :=
  (∀ j, j < n → ¬ StopAt flags k j) ∧ (n = m ∨ (n < m ∧ StopAt flags k n))

theorem reached_iff {c : Ctx} {n : Nat} : Reached c n ↔ StopAt (isScal c.scaldims) c.opt.stop n := by
  unfold Reached StopAt
  refine and_congr_right (fun _ => exists_congr (fun P => ?_))
  exact ⟨fun ⟨⟨a, b, c⟩, d⟩ => ⟨a, b, c, d⟩, fun ⟨a, b, c, d⟩ => ⟨⟨a, b, c⟩, d⟩⟩

theorem reached_eq (c : Ctx) : Reached c = StopAt (isScal c.scaldims) c.opt.stop :=
  funext fun _ => propext reached_iff

/-- The number of kept iterators is determined. -/
theorem kept_unique {flags : List Bool} {k : Int} {n n' m : Nat} (h : Kept flags k n m)
    (h' : Kept flags k n' m) : n = n' := CutLen.unique (reach := StopAt flags k) h h'

/-- Without scalar dimensions the depth is the number of iterators. -/
theorem kept_plain {flags : List Bool} (hf : ∀ f ∈ flags, f = false) (k n m : Nat) :
    Kept flags k n m ↔ n = min k m := by
  have hc : ∀ P, (flags.take P).count true = 0 := by
    intro P
    rw [List.count_eq_zero]
    intro h
    have := hf true (List.mem_of_mem_take h)
    simp at this
  have hs : ∀ n, StopAt flags k n ↔ k ≤ n := by
    intro n
    unfold StopAt
    constructor
    · rintro ⟨_, P, h1, _, _, h2⟩
      rw [hc] at h1
      omega
    · intro h
      refine ⟨by omega, n, by rw [hc]; omega, fun h => h, fun _ h => ?_, by omega⟩
      have := hf true (List.mem_of_getElem? h)
      simp at this
  unfold Kept
  simp only [hs]
  constructor
  · rintro ⟨h1, rfl | ⟨h2, h3⟩⟩
    · rcases Nat.lt_or_ge k n with h | h
      · exact absurd (Nat.le_refl k) (h1 k h)
      · omega
    · rcases Nat.lt_or_ge k n with h | h
      · exact absurd (Nat.le_refl k) (h1 k h)
      · omega
  · rintro rfl
    refine ⟨fun j hj => by omega, ?_⟩
    omega

/-! ## Trees -/

theorem occurs_cutted {st : Bool} {reach : Nat → Prop} {K : List (Option Block × Nat)} {pd : D}
    {T : List (Loop D S)} (hT : ∀ t ∈ T, Cutted o mem ok st reach K 0 pd t) {q : Option (Loop D S)}
    {l : Loop D S} (h : Occurs T q l) :
    ∃ L pd', Cutted o mem ok st reach K L pd' l ∧ (q = none → L = 0) ∧ ∀ p, q = some p → pd' = p.dom := by
  induction h with
  | top hl => exact ⟨0, pd, hT _ hl, fun _ => rfl, by simp⟩
  | @sub q p l hp hl ih =>
    obtain ⟨L, pd', hc, _, _⟩ := ih
    refine ⟨L + 1, p.dom, ?_, by simp, by simp⟩
    cases hc with
    | node _ _ h3 => exact h3 l hl
    | leaf _ _ _ _ => simp at hl

theorem has_cutted {st : Bool} {reach : Nat → Prop} {K : List (Option Block × Nat)} {L : Nat} {pd : D}
    {t : Loop D S} (h : Cutted o mem ok st reach K L pd t) : ∀ (p : Par) (x : Pt) (e : Inst),
    hasLoop (sem o mem ok p) L x t e →
      ∃ m, (some e.block, m) ∈ K ∧ CutLen reach e.args.length m := by
  induction h with
  | node h1 _ _ ih =>
    intro p x e he
    rw [hasLoop_nd ⟨h1, rfl⟩] at he
    obtain ⟨y, _, _, _, he⟩ := he
    obtain ⟨i, hi, he⟩ := hasLoops_iff.1 he
    exact ih i hi p y e he
  | @leaf L pd d ot sd b m h1 h2 h3 h4 =>
    intro p x e he
    rw [hasLoop_mk] at he
    obtain ⟨y, _, he⟩ := he
    simp only [BlockAt, hasLoops, or_false, Option.some.injEq] at he
    obtain ⟨rfl, he⟩ := he
    have hl : e.args.length = L - 1 := by
      rw [he, argsOf_length]
      show o.dim d = L - 1
      omega
    refine ⟨m, h2, ?_⟩
    rw [hl]
    refine ⟨fun j hj => h3 j (by omega), ?_⟩
    rcases h4 with h | ⟨h, hr, _⟩
    · exact Or.inl (by omega)
    · exact Or.inr ⟨by omega, hr⟩

/-! ## C44 -/

/-- **C44** (partial: no `-l`, `-f` and `-first-unroll` not zero, statements as in `StmtsOK`, domain
operations as in `GenLaws`, and with `-strides` as in `StrideLaws` and `AddStrideLaws`, merged loops
having the same stride).  Whatever loop tree is generated with `-stop`:
* every instance of a statement in the context is executed at the values of its kept iterators;
* every executed instance is one of a given statement, with the kept iterators only;
* no loop scans a dimension at which or below which the depth to stop is reached;
* a statement occurs with all its iterators, or where the depth to stop is reached, and then (without
  `-strides`) it is executed for every point of the enclosing loop. -/
theorem C44_stop_partial (G : GenLaws o mem) (A : AddStrideLaws o mem ok) {c : Ctx}
    (W : WFScal c.scaldims) (hopt : OptStop c.opt) (hns : c.opt.strides = true → StrideLaws o mem ok)
    [DecidableEq S] {fuel : Nat} {B T : List (Loop D S)} {ctx : D} (hctx : o.dim ctx = 0)
    (hB : StmtsOK o (isScal c.scaldims) B) (h : generateS o c fuel B ctx 0 0 = some T) :
    (∀ b ∈ B, ∀ u, b.block = some u → ∀ p x y, mem ctx (p, x) → mem b.dom (p, y) →
      ∃ n, Kept (isScal c.scaldims) c.opt.stop n (o.dim b.dom) ∧
        hasLoops (sem o mem ok p) 0 x T ⟨u, argsOf n y⟩) ∧
    (∀ p x e, hasLoops (sem o mem ok p) 0 x T e → ∃ b ∈ B, b.block = some e.block ∧
      Kept (isScal c.scaldims) c.opt.stop e.args.length (o.dim b.dom)) ∧
    (∀ q l, Occurs T q l → l.block = none →
      ∀ j, j < o.dim l.dom → ¬ StopAt (isScal c.scaldims) c.opt.stop j) ∧
    ∀ q l u, Occurs T q l → l.block = some u → l.inner = [] ∧ ∃ b ∈ B, b.block = some u ∧
      Kept (isScal c.scaldims) c.opt.stop (o.dim l.dom) (o.dim b.dom) ∧
      (c.opt.strides = false → o.dim l.dom < o.dim b.dom → ∃ t, q = some t ∧
        ∀ px, mem t.dom px → mem l.dom px) := by
  have hK : KOK (isScal c.scaldims) (fun _ _ => True) (keys o B) := by
    have h := stmts_keys hB
    exact ⟨h.block, h.ord.imp (fun _ _ _ _ _ => trivial), h.uni, h.dims, h.last⟩
  obtain ⟨h1, h2⟩ := generateC_out G A W hopt hns (combineS_ok c.opt) hctx hB.inner hK h
  rw [reached_eq] at h1 h2
  have hkey : ∀ u m, (some u, m) ∈ keys o B → ∃ b ∈ B, b.block = some u ∧ o.dim b.dom = m := by
    intro u m hm
    obtain ⟨b, hb, he⟩ := List.mem_map.1 hm
    simp only [Prod.mk.injEq] at he
    exact ⟨b, hb, he.1, he.2⟩
  refine ⟨h2, ?_, ?_, ?_⟩
  · intro p x e he
    obtain ⟨t, ht, he⟩ := hasLoops_iff.1 he
    obtain ⟨m, hm, hc⟩ := has_cutted (h1 t ht) p x e he
    obtain ⟨b, hb, b1, rfl⟩ := hkey _ _ hm
    exact ⟨b, hb, b1, hc⟩
  · intro q l hl hb
    obtain ⟨L, pd, hc, _⟩ := occurs_cutted h1 hl
    cases hc with
    | node d1 d2 _ =>
      rw [Loop.dom_mk, d1]
      exact d2
    | leaf _ _ _ _ => simp at hb
  · intro q l u hl hb
    obtain ⟨L, pd, hc, hq0, hq⟩ := occurs_cutted h1 hl
    cases hc with
    | node _ _ _ => simp at hb
    | @leaf _ _ d ot sd b m d1 d2 d3 d4 =>
      rw [Loop.block_mk] at hb
      obtain rfl := Option.some.inj hb
      obtain ⟨b', hb', b1, rfl⟩ := hkey _ _ d2
      simp only [Loop.dom_mk, Loop.inner_mk]
      refine ⟨trivial, b', hb', b1, ⟨fun j hj => d3 j (by omega), ?_⟩, ?_⟩
      · rcases d4 with h | ⟨h, hr, _⟩
        · exact Or.inl (by omega)
        · refine Or.inr ⟨by omega, ?_⟩
          rw [show o.dim d = L - 1 by omega]
          exact hr
      · intro hs hlt
        rcases d4 with h | ⟨_, _, s, g1, g2⟩
        · omega
        · cases q with
          | none => have := hq0 rfl; omega
          | some t =>
            refine ⟨t, rfl, fun px hpx => ?_⟩
            rw [← hq t rfl] at hpx
            refine g2 px hpx ?_
            rw [g1 hs]
            exact adm_none

/-- **C44** for a scattering without scalar dimensions (or without scattering) and `-stop k`: every
instance of a statement is executed at its first `k` iterators (at all of them if there are fewer), and
every executed instance has that many. -/
theorem C44_first_iterators_partial (G : GenLaws o mem) (A : AddStrideLaws o mem ok) {c : Ctx}
    (W : WFScal c.scaldims) (hopt : OptStop c.opt) (hns : c.opt.strides = true → StrideLaws o mem ok)
    [DecidableEq S] {fuel k : Nat} (hk : c.opt.stop = k) (hf : ∀ f ∈ isScal c.scaldims, f = false)
    {B T : List (Loop D S)} {ctx : D} (hctx : o.dim ctx = 0)
    (hB : StmtsOK o (isScal c.scaldims) B) (h : generateS o c fuel B ctx 0 0 = some T) (p : Par) (x : Pt)
    (hx : mem ctx (p, x)) :
    (∀ b ∈ B, ∀ u, b.block = some u → ∀ y, mem b.dom (p, y) →
      hasLoops (sem o mem ok p) 0 x T ⟨u, argsOf (min k (o.dim b.dom)) y⟩) ∧
    ∀ e, hasLoops (sem o mem ok p) 0 x T e →
      ∃ b ∈ B, b.block = some e.block ∧ e.args.length = min k (o.dim b.dom) := by
  obtain ⟨h1, h2, _⟩ := C44_stop_partial G A W hopt hns hctx hB h
  rw [hk] at h1 h2
  refine ⟨fun b hb u hu y hy => ?_, fun e he => ?_⟩
  · obtain ⟨n, n1, n2⟩ := h1 b hb u hu p x y hx hy
    rw [← (kept_plain hf k n _).1 n1]
    exact n2
  · obtain ⟨b, hb, b1, b2⟩ := h2 p x e he
    exact ⟨b, hb, b1, (kept_plain hf k _ _).1 b2⟩

/-! ## With a last level the option is ignored below it -/

mutual
/-- Some loop of the tree scans dimension `n`. -/
def scans (n : Nat) : Loop BoxDom.BD (Int × Int) → Bool
  | .mk d _ _ b inner => (b.isNone && d.dim == n) || scansL n inner
/-- The same for lists. -/
def scansL (n : Nat) : List (Loop BoxDom.BD (Int × Int)) → Bool
  | [] => false
  | l :: ls => scans n l || scansL n ls
end

theorem scans_occurs {n : Nat} {T : List (Loop BoxDom.BD (Int × Int))} (ls : List (Loop BoxDom.BD (Int × Int))) :
    ∀ q, (∀ l ∈ ls, Occurs T q l) → scansL n ls = true →
      ∃ q l, Occurs T q l ∧ l.block = none ∧ l.dom.dim = n := by
  refine Loop.rec_1 (D := BoxDom.BD) (S := Int × Int)
    (motive_1 := fun l => ∀ q, Occurs T q l → scans n l = true →
      ∃ q l, Occurs T q l ∧ l.block = none ∧ l.dom.dim = n)
    (motive_2 := fun ls => ∀ q, (∀ l ∈ ls, Occurs T q l) → scansL n ls = true →
      ∃ q l, Occurs T q l ∧ l.block = none ∧ l.dom.dim = n) ?_ ?_ ?_ ls
  · intro d ot st b inner ih q ho h
    rw [scans, Bool.or_eq_true, Bool.and_eq_true] at h
    rcases h with ⟨h1, h2⟩ | h
    · exact ⟨q, _, ho, by simpa using h1, by simpa using h2⟩
    · exact ih _ (fun l hl => .sub ho hl) h
  · intro q _ h
    simp [scansL] at h
  · intro l ls ih1 ih2 q ho h
    rw [scansL, Bool.or_eq_true] at h
    rcases h with h | h
    · exact ih1 q (ho l (by simp)) h
    · exact ih2 q (fun l' hl' => ho l' (by simp [hl'])) h

/-- **C44**, disagreement: with `-stop 1 -l 1` the loops of level 2 are generated all the same.  Below
the last level to optimise, the recursion does not look at the depth to stop
(`cloog_loop_generate_general`, `source/loop.c:1972-1987`, calls `cloog_loop_nest`, whose result is not
given to `cloog_loop_stop`). -/
theorem C44_ignored_below_last : ∃ T,
    generateS BoxDom.ops ⟨{ stop := 1, l := 1 }, []⟩ 20 exB (box 0 [[]]) 0 0 = some T ∧
    StopAt [] 1 1 ∧ ∃ q l, Occurs T q l ∧ l.block = none ∧ BoxDom.ops.dim l.dom = 2 := by
  have hT : ((generateS BoxDom.ops ⟨{ stop := 1, l := 1 }, []⟩ 20 exB (box 0 [[]]) 0 0).map
      (scansL 2)) = some true := by decide +kernel
  obtain ⟨T, hT, hi⟩ := Option.map_eq_some_iff.1 hT
  refine ⟨T, hT, ⟨by decide, 1, by decide, by decide, by decide, by decide⟩, ?_⟩
  exact scans_occurs T none (fun l hl => .top hl) hi

/-! ## Cases -/

theorem box_addStride : AddStrideLaws BoxDom.ops BoxDom.mem BoxDom.strideOk :=
  ⟨fun _ _ => rfl, fun _ _ _ _ h _ => h⟩

/-- `-stop 1`. -/
def exStop : Ctx := ⟨{ stop := 1 }, []⟩

/-- Two statements of depths 1 and 2, `-stop 1`: the second is executed with one iterator, at 2. -/
example : OptStop exStop.opt ∧ ∃ T, generateS BoxDom.ops exStop 20 exB (box 0 [[]]) 0 0 = some T ∧
    hasLoops (sem BoxDom.ops BoxDom.mem BoxDom.strideOk ()) 0 (fun _ => 0) T ⟨⟨[2], []⟩, [2]⟩ := by
  have hs : StmtsOK BoxDom.ops (isScal exStop.scaldims) exB := by
    refine ⟨by decide, by decide, by decide, by decide, ?_, by decide⟩
    intro a b c h
    have := h.length_le
    simp [exB] at this
  have hw : WFScal exStop.scaldims := by intro i n hi; simp [exStop] at hi
  have ho : OptStop exStop.opt := ⟨⟨by decide, by decide, Or.inl rfl⟩, by decide⟩
  have hT : ((generateS BoxDom.ops exStop 20 exB (box 0 [[]]) 0 0).map (insides 0)) = some true := by
    decide +kernel
  obtain ⟨T, hT, _⟩ := Option.map_eq_some_iff.1 hT
  refine ⟨ho, T, hT, ?_⟩
  exact (C44_first_iterators_partial BoxDom.laws box_addStride hw ho (fun h => by simp [exStop] at h) (k := 1) rfl
    (by decide) rfl hs hT () (fun _ => 0) (by unfold BoxDom.mem; decide)).1
    _ (by simp [exB]; exact Or.inr rfl) _ rfl (fun _ => 2) (by unfold BoxDom.mem; decide)

/-- Scattering `(i, k, j)` with scalar `k`: the depths 0, 1 and 3 are the ends of 0, 1 and 2 iterators, so
`-stop 2` keeps both. -/
example : StopAt [false, true, false] 1 1 ∧ StopAt [false, true, false] 2 2 ∧
    Kept [false, true, false] 2 2 2 := by
  refine ⟨⟨by decide, 1, by decide, by decide, by decide, by decide⟩,
    ⟨by decide, 3, by decide, by decide, by decide, by decide⟩, ?_, Or.inl rfl⟩
  rintro j hj ⟨_, P, h1, h2, h3, h4⟩
  have : P ≤ 3 := by
    by_contra hP
    have : (([false, true, false] : List Bool).take P) = [false, true, false] :=
      List.take_of_length_le (by simp; omega)
    rw [this] at h1
    simp at h1
    omega
  have : P = 2 ∨ P = 3 := by omega
  rcases this with rfl | rfl <;> simp_all
  omega

end Verif.Props.Stop
