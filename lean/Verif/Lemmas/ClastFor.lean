import Verif.Lemmas.StrideBound
import Verif.Props.Expr
import Mathlib.Tactic.LinearCombination

/-!
# What a loop, an equation or a pair of inequalities scans
-/

namespace Verif.ClastGen

open Verif.IntOps Verif.Clast Verif.Bound Verif.Props.Arith Verif.Props.Bounds Verif.Props.Guards
open Verif.Props.Expr

/-- Distinct iterators have distinct names, different from those of the parameters. -/
structure NamesOK (nm : Names) : Prop where
  inj : ∀ c c', nm.at_ c = nm.at_ c' → c = c'
  par : ∀ c k, k < nm.nPar → nm.at_ c ≠ nm.param k

/-- Only the iterators from level `L` on may change. -/
def Frame (nm : Names) (L : Nat) (env env' : Env) : Prop :=
  ∀ s, (∀ c, L - 1 ≤ c → s ≠ nm.at_ c) → env' s = env s

theorem Frame.refl (nm : Names) (L : Nat) (env : Env) : Frame nm L env env := fun _ _ => rfl

theorem Frame.trans {nm : Names} {L : Nat} {a b c : Env} (h1 : Frame nm L a b)
    (h2 : Frame nm L b c) : Frame nm L a c := fun s hs => (h2 s hs).trans (h1 s hs)

theorem Frame.mono {nm : Names} {L L' : Nat} {a b : Env} (h : Frame nm L a b) (hl : L' ≤ L) :
    Frame nm L' a b := fun s hs => h s (fun c hc => hs c (by omega))

theorem Frame.update {nm : Names} {L : Nat} {a b : Env} (h : Frame nm L a b) (c : Nat)
    (hc : L - 1 ≤ c) (v : Int) : Frame nm L a (Function.update b (nm.at_ c) v) := by
  intro s hs
  rw [Function.update_of_ne (hs c hc)]
  exact h s hs

theorem Frame.at {nm : Names} (hn : NamesOK nm) {L : Nat} {a b : Env} (h : Frame nm L a b) (c : Nat)
    (hc : c < L - 1) : b (nm.at_ c) = a (nm.at_ c) := by
  apply h
  intro c' hc' he
  have := hn.inj _ _ he
  omega

theorem Frame.envOK {nm : Names} (hn : NamesOK nm) {L : Nat} {a b : Env} (h : Frame nm L a b)
    {ok : Nat → Bool} (hok : ∀ c, ok c = true → c < L - 1) {x p : Nat → Int}
    (he : EnvOK nm ok a x p) : EnvOK nm ok b x p := by
  refine ⟨fun k hk => ?_, fun c hc => ?_⟩
  · rw [h _ (fun c _ he => hn.par c k hk he.symm)]
    exact he.par k hk
  · rw [h.at hn c (hok c hc)]
    exact he.it c hc

theorem EnvOK.congr {nm : Names} {ok : Nat → Bool} {env : Env} {x x' p : Nat → Int}
    (he : EnvOK nm ok env x p) (h : ∀ c, ok c = true → x' c = x c) : EnvOK nm ok env x' p :=
  ⟨he.par, fun c hc => (he.it c hc).trans (h c hc).symm⟩

/-! ## Iterating -/

/-- A `for` loop from the value its iterator has, up to a fixed bound. -/
theorem forExec_scan (it : String) (ub : Expr) (s : Int) (hs : 0 < s) (body : List Stmt) (U : Int)
    (P : Env → Prop) (hub : ∀ e, P e → ub.eval e = U)
    (hup : ∀ e v, P e → P (Function.update e it v)) :
    ∀ (run : List (Int × List Event)) (env : Env), P env →
    (run.map Prod.fst).Pairwise (· < ·) →
    (∀ v, v ∈ run.map Prod.fst ↔ env it ≤ v ∧ v ≤ U ∧ s ∣ v - env it) →
    (∀ vt ∈ run, ∀ e, P e → e it = vt.1 → ∃ e', Exec body e vt.2 e' ∧ e' it = vt.1 ∧ P e') →
    ∃ env', ForExec it ub s body env (run.map Prod.snd).flatten env' ∧ P env'
  | [], env, hP, _, hin, _ => by
    refine ⟨env, ?_, hP⟩
    refine .done ?_
    rw [hub env hP]
    intro hle
    have := (hin (env it)).mpr ⟨le_refl _, hle, by simp⟩
    simp at this
  | (v, t) :: rest, env, hP, hpw, hin, hb => by
    simp only [List.map_cons, List.pairwise_cons] at hpw
    have hv := (hin v).mp (by simp)
    have h0 := (hin (env it)).mpr ⟨le_refl _, by omega, by simp⟩
    have hve : v = env it := by
      simp only [List.map_cons, List.mem_cons] at h0
      rcases h0 with h0 | h0
      · exact h0.symm
      · have := hpw.1 _ h0
        omega
    obtain ⟨e1, hx1, hi1, hP1⟩ := hb (v, t) (by simp) env hP hve.symm
    simp only at hx1 hi1
    obtain ⟨e2, hx2, hP2⟩ := forExec_scan it ub s hs body U P hub hup rest
      (Function.update e1 it (e1 it + s)) (hup _ _ hP1) hpw.2 (by
        intro w
        simp only [Function.update_self, hi1]
        constructor
        · intro hw
          have h1 := hpw.1 _ hw
          obtain ⟨h2, h3, k, h4⟩ := (hin w).mp (by simp only [List.map_cons, List.mem_cons]; exact .inr hw)
          have hk : 1 ≤ k := by
            by_contra hk
            have : s * k ≤ 0 := mul_nonpos_of_nonneg_of_nonpos hs.le (by omega)
            omega
          have : s * 1 ≤ s * k := Int.mul_le_mul_of_nonneg_left hk hs.le
          exact ⟨by omega, h3, k - 1, by rw [mul_sub, ← h4]; omega⟩
        · rintro ⟨h1, h2, k, h3⟩
          have := (hin w).mpr ⟨by omega, h2, k + 1, by rw [mul_add, ← h3]; omega⟩
          simp only [List.map_cons, List.mem_cons] at this
          rcases this with h | h
          · omega
          · exact h)
      (fun vt hvt => hb vt (by simp [hvt]))
    refine ⟨e2, ?_, hP2⟩
    simp only [List.map_cons, List.flatten_cons]
    refine .step ?_ hx1 hx2
    rw [hub env hP]; omega

/-! ## What a step has to do -/

/-- The values a loop scans. -/
def Scanned (nm : Names) (p : Nat → Int) (L : Nat) (D : Dom) (st : Option Stride) (x : Nat → Int)
    (v : Int) : Prop :=
  D.mem (Function.update x (L - 1) v) p ∧ strideOk st (L - 1) nm.nPar (Function.update x (L - 1) v) p

/-- What is put around the contents executes them for the scanned values, in order. -/
def StepSpec (nm : Names) (p : Nat → Int) (L : Nat) (D : Dom) (st : Option Stride) (x : Nat → Int)
    (env : Env) (s : Step) : Prop :=
  (s.go = false → (∀ v, ¬ Scanned nm p L D st x v) ∧ ∀ body, s.wrap body = body) ∧
  (s.go = true → ∀ (body : List Stmt) (run : List (Int × List Event)),
    (run.map Prod.fst).Pairwise (· < ·) →
    (∀ v, v ∈ run.map Prod.fst ↔ Scanned nm p L D st x v) →
    (∀ vt ∈ run, ∀ env1, Frame nm L env env1 → (s.assigned = true → env1 (nm.at_ (L - 1)) = vt.1) →
      ∃ env2, Exec body env1 vt.2 env2 ∧ Frame nm (L + 1) env1 env2) →
    ∃ env', Exec (s.wrap body) env (run.map Prod.snd).flatten env' ∧ Frame nm L env env')

/-- The context predicate does not depend on the iterators from level `L` on. -/
def Local (L : Nat) (K : (Nat → Int) → Prop) : Prop :=
  ∀ x x', (∀ c, c < L - 1 → x c = x' c) → K x → K x'

theorem Local.update {L : Nat} {K : (Nat → Int) → Prop} (h : Local L K) (x : Nat → Int) (v : Int)
    (hx : K x) : K (Function.update x (L - 1) v) :=
  h x _ (fun c hc => by rw [Function.update_of_ne (by omega)]) hx

/-- Assumptions about a domain scanned by a loop with bounds. -/
structure ForOK (cx : Ctx) (p : Nat → Int) (L : Nat) (ok : Nat → Bool) (K : (Nat → Int) → Prop)
    (D : Dom) (st : Option Stride) (otl : Bool) : Prop where
  /-- the iterator is bounded on both sides -/
  lower : ∃ r ∈ D.rows, r.isEq = false ∧ 0 < r.at (L - 1)
  upper : ∃ r ∈ D.rows, r.isEq = false ∧ r.at (L - 1) < 0
  /-- the bounds use available columns -/
  use : ∀ r ∈ D.rows, r.isEq = false → r.at (L - 1) ≠ 0 → ∀ c, c ≠ L - 1 → r.at c ≠ 0 →
    D.usable ok c = true
  /-- equalities that involve the iterator (and then some existential) are implied by the stride and
  the other constraints -/
  eqs : ∀ x, K x → strideOk st (L - 1) cx.nm.nPar x p →
    (∀ r ∈ D.rows, ¬ (r.isEq = true ∧ r.at (L - 1) ≠ 0) → r.holds (D.pt x p)) → D.mem x p
  pos : ∀ s, st = some s → 0 < s.stride
  /-- for a stride with a constant offset: non-constant lower bounds are already in the class of the
  offset -/
  constant : ∀ s, st = some s → s.con = none → ∀ r ∈ D.rows, r.isEq = false → 0 < r.at (L - 1) →
    ∀ b, boundFromConstraint r (L - 1) (D.vars cx.nm) = some b → (∃ c, b = .cst c) ∨
    ∀ x env, K x → EnvOK cx.nm ok env x p → s.stride ∣ b.eval env - s.offset
  /-- for a stride given by a constraint: it is as `cloog_domain_list_stride` makes them, its offset uses
  available iterators, and the division added by `cloog_constraint_stride_lower_bound` is printed
  faithfully -/
  byRow : ∀ s c, st = some s → s.con = some c → FloorLaws cx.floorAff ∧ s.wf (L - 1) cx.nm.nPar ∧
    s.uses (L - 1) ok ∧ ∀ r ∈ D.rows, r.isEq = false → 0 < r.at (L - 1) → ∀ e,
      (cx.floorAff (strideDiv cx.nm.nPar s c (L - 1) r)).2 = some e → Faithful e
  /-- the otl flag is right -/
  once : otl = true → ∀ x, K x → ∀ v w, Scanned cx.nm p L D st x v → Scanned cx.nm p L D st x w →
    v = w

theorem pt_own (D : Dom) (x p : Nat → Int) (c : Nat) (v : Int) (hc : c < D.nIter) :
    Function.update (D.pt (Function.update x c v) p) c v = D.pt (Function.update x c v) p := by
  rw [Function.update_eq_self_iff]
  unfold Dom.pt
  rw [if_pos hc, Function.update_self]

theorem row_agree (cx : Ctx) (p : Nat → Int) (ok : Nat → Bool) (D : Dom) (col : Nat) (r : Row)
    (hlen : r.coef.length = D.total cx.nm) (hf : D.divsFaithful cx.nm)
    (hok : ok col = false) (x : Nat → Int) (env : Env) (v : Int) (he : EnvOK cx.nm ok env x p)
    (hu : ∀ c, c ≠ col → r.at c ≠ 0 → D.usable ok c = true) :
    Agree (D.vars cx.nm) env (D.pt (Function.update x col v) p) col r := by
  intro i hi hz
  refine D.vars_eval cx.nm ok env _ p (he.congr (fun c hc => ?_)) hf i
    (by have := Row.at_lt r i hz; omega) (hu i hi hz)
  rw [Function.update_of_ne]
  rintro rfl
  rw [hok] at hc
  cases hc

/-- Rows that do not involve the scanned iterator do not depend on it. -/
theorem row_outer (cx : Ctx) (p : Nat → Int) (L : Nat) (ok : Nat → Bool) (eqs : List (Nat × Row))
    (strides : Nat → Option Stride) (K : (Nat → Int) → Prop) (D : Dom)
    (hG : GuardOK cx p L ok eqs strides K D) (hok : ok (L - 1) = false)
    (x : Nat → Int) (v : Int) (r : Row) (hr : r ∈ D.rows)
    (hinv : Row.involvesOpt r (guardCol D L) = false) :
    r.holds (D.pt (Function.update x (L - 1) v) p) ↔ r.holds (D.pt x p) := by
  apply Row.holds_congr
  intro c hc
  refine D.pt_agree ok _ _ p (fun c hc => ?_) c (hG.use r hr hinv c hc)
  rw [Function.update_of_ne]
  rintro rfl
  rw [hok] at hc
  cases hc

theorem involves_own (D : Dom) (L : Nat) (hL : 0 < L) (hD : L ≤ D.nIter) (r : Row) :
    Row.involvesOpt r (guardCol D L) = false ↔ r.at (L - 1) = 0 := by
  unfold guardCol
  rw [if_pos ⟨hL, hD⟩]
  simp [Row.involvesOpt, Row.involves]

theorem strideOk_iff (s : Stride) (col nPar : Nat) (x p : Nat → Int) (v : Int) :
    strideOk (some s) col nPar (Function.update x col v) p ↔
      s.holds col (col + 1) nPar (Function.update
        (fun c => if c < col + 1 then x c else p (c - (col + 1))) col v) := by
  unfold strideOk
  simp only
  apply Stride.holds_congr
  · intro k hk
    rw [if_pos (by omega)]
    by_cases h : k = col
    · subst h; simp
    · rw [Function.update_of_ne h, Function.update_of_ne h, if_pos (by omega)]
  · intro q _
    rw [if_neg (by omega), Function.update_of_ne (by omega), if_neg (by omega)]

/-- The offset of a stride, from the iterators and the parameters. -/
theorem offVal_eq (nm : Names) (s : Stride) (c : Row) (col nb : Nat) (hcol : col < nb) (y : Point) (x p : Nat → Int)
    (h1 : nm.nPar ≤ c.coef.length) (h2 : col + 1 ≤ c.coef.length - nm.nPar)
    (hx : ∀ i, i < col → c.at i ≠ 0 → y i = x i) (hp : ∀ q, q < nm.nPar → y (nb + q) = p q) :
    offVal s c col nb (nb + nm.nPar) y = s.factor * Stride.conVal c col (col + 1) nm.nPar
      (Function.update (fun k => if k < col + 1 then x k else p (k - (col + 1))) col 0) := by
  rw [conVal_eq c col _ _ _ h1 h2]
  unfold offVal
  rw [Finset.sum_range_add]
  have e1 : ∑ i ∈ Finset.range nb, strideOff s c col nb (nb + nm.nPar) i * y i =
      s.factor * ∑ k ∈ Finset.range col, c.at k *
        Function.update (fun k => if k < col + 1 then x k else p (k - (col + 1))) col 0 k := by
    rw [Finset.mul_sum]
    symm
    rw [← Finset.sum_subset (Finset.range_subset_range.2 (show col ≤ nb by omega))]
    · refine Finset.sum_congr rfl fun i hi => ?_
      have hi' := Finset.mem_range.1 hi
      rw [Function.update_of_ne (by omega), if_pos (by omega), strideOff, if_pos hi']
      by_cases h0 : c.at i = 0
      · rw [h0]; ring
      · rw [hx i hi' h0]; ring
    · intro i h3 h4
      rw [Finset.mem_range] at h3 h4
      rw [strideOff, if_neg h4, if_neg (by omega), Int.zero_mul]
  have e2 : ∑ q ∈ Finset.range nm.nPar, strideOff s c col nb (nb + nm.nPar) (nb + q) * y (nb + q) =
      s.factor * ∑ q ∈ Finset.range nm.nPar, c.at (c.coef.length - nm.nPar + q) *
        Function.update (fun k => if k < col + 1 then x k else p (k - (col + 1))) col 0 (col + 1 + q) := by
    rw [Finset.mul_sum]
    refine Finset.sum_congr rfl fun q hq => ?_
    have hq' := Finset.mem_range.1 hq
    rw [Function.update_of_ne (by omega), if_neg (by omega), strideOff, if_neg (by omega), if_pos (by omega),
      hp q hq', show nb + q + c.coef.length - (nb + nm.nPar) = c.coef.length - nm.nPar + q by omega,
      show col + 1 + q - (col + 1) = q by omega]
    ring
  rw [e1, e2, Function.update_self]
  ring

/-- The first value of the class of a stride at or above a bound. -/
theorem class_bound {a f d s g k F : Int} (ha : 0 < a) (hs : 0 < s) (hd : d = F * g) (hF : s ∣ F * k + 1) :
    s ∣ g + k * (d - s * ((f + a * d) / (a * s))) ∧
    ∀ v, s ∣ g + k * v → (d - s * ((f + a * d) / (a * s)) ≤ v ↔ 0 ≤ f + a * v) := by
  obtain ⟨m, hm⟩ := hF
  constructor
  · refine ⟨g * m - k * ((f + a * d) / (a * s)), ?_⟩
    have : g + k * d = s * (g * m) := by
      rw [hd]
      calc g + k * (F * g) = g * (F * k + 1) := by ring
        _ = s * (g * m) := by rw [hm]; ring
    linear_combination this
  · rintro v ⟨j, hj⟩
    -- `v = d + s t`
    obtain ⟨t, ht⟩ : ∃ t, v = d + s * t := by
      refine ⟨m * v - F * j, ?_⟩
      rw [hd]
      linear_combination v * hm - F * hj
    subst ht
    have h1 : (d - s * ((f + a * d) / (a * s)) ≤ d + s * t) ↔ -t ≤ (f + a * d) / (a * s) := by
      constructor
      · intro h
        by_contra hc
        have : s * ((f + a * d) / (a * s)) < s * (-t) := Int.mul_lt_mul_of_pos_left (by omega) hs
        have e : s * (-t) = -(s * t) := by ring
        omega
      · intro h
        have := Int.mul_le_mul_of_nonneg_left h hs.le
        have e : s * (-t) = -(s * t) := by ring
        omega
    rw [h1, Int.le_ediv_iff_mul_le (Int.mul_pos ha hs)]
    have e : f + a * (d + s * t) = f + a * d - -t * (a * s) := by ring
    rw [e]
    omega

theorem loopBound_some {cx : Ctx} {rows : List Row} {col : Nat} {max : Bool} {st : Option Stride}
    {vars : Nat → Expr} {e : Expr} (h : loopBound cx rows col max st vars = some e) :
    loopBounds cx rows col max st vars ≠ [] ∧
      e = .red (if max then .max else .min) (cx.sort (loopBounds cx rows col max st vars)) := by
  unfold loopBound at h
  dsimp only at h
  split at h
  · cases h
  · rename_i hne
    injection h with h
    exact ⟨fun h' => hne (by rw [h']; rfl), h.symm⟩

section bounds

variable (cx : Ctx) (hsort : ∀ l, (cx.sort l).Perm l) (p : Nat → Int) (L : Nat) (ok : Nat → Bool)
  (K : (Nat → Int) → Prop) (D : Dom) (st : Option Stride) (otl : Bool)
  (hlen : ∀ r ∈ D.rows, r.coef.length = D.total cx.nm) (hf : D.divsFaithful cx.nm)
  (hF : ForOK cx p L ok K D st otl) (hL : 0 < L) (hD : L = D.nIter)
  (hok : ok (L - 1) = false)

include hlen hf hF hL hD hok hsort

theorem upper_char (x : Nat → Int) (env : Env) (he : EnvOK cx.nm ok env x p) (e : Expr)
    (h : loopBound cx D.rows (L - 1) false st (D.vars cx.nm) = some e) (v : Int) :
    v ≤ e.eval env ↔ ∀ r ∈ D.rows, r.isEq = false → r.at (L - 1) < 0 →
      r.holds (D.pt (Function.update x (L - 1) v) p) := by
  obtain ⟨hne, rfl⟩ := loopBound_some h
  simp only [Bool.false_eq_true, if_false, Expr.eval, evalList_eq_map]
  have hne' : (cx.sort (loopBounds cx D.rows (L - 1) false st (D.vars cx.nm))).map (Expr.eval env) ≠ [] := by
    intro h'
    apply hne
    have := (hsort (loopBounds cx D.rows (L - 1) false st (D.vars cx.nm))).length_eq
    rw [List.map_eq_nil_iff.mp h'] at this
    exact List.eq_nil_of_length_eq_zero this.symm
  rw [le_min_iff _ hne']
  have hmem : ∀ e, e ∈ loopBounds cx D.rows (L - 1) false st (D.vars cx.nm) ↔
      ∃ r ∈ D.rows, (r.isEq = false ∧ r.at (L - 1) < 0) ∧
        boundFromConstraint r (L - 1) (D.vars cx.nm) = some e := by
    intro e
    unfold loopBounds
    simp only [List.mem_filterMap, List.mem_filter, validUpper]
    constructor
    · rintro ⟨r, ⟨hr, h1, h2⟩, h3⟩
      exact ⟨r, hr, ⟨h2, h1⟩, h3⟩
    · rintro ⟨r, hr, ⟨h2, h1⟩, h3⟩
      exact ⟨r, ⟨hr, h1, h2⟩, h3⟩
  constructor
  · intro hall r hr hq ha
    obtain ⟨b, hb⟩ := bound_exists (D.vars cx.nm) (show r.at (L - 1) ≠ 0 by omega)
    have hag := row_agree cx p ok D (L - 1) r (hlen r hr) hf hok x env v he
      (hF.use r hr hq (by omega))
    have := C05_upper r (L - 1) (D.vars cx.nm) b env _ hb hag hq ha v
    rw [pt_own D x p (L - 1) v (by omega)] at this
    rw [this]
    exact hall _ (List.mem_map.mpr ⟨b, (hsort _).mem_iff.mpr ((hmem b).mpr ⟨r, hr, ⟨hq, ha⟩, hb⟩), rfl⟩)
  · intro hall a ha
    obtain ⟨b, hb, rfl⟩ := List.mem_map.mp ha
    obtain ⟨r, hr, ⟨hq, hat⟩, hb'⟩ := (hmem b).mp ((hsort _).mem_iff.mp hb)
    have hag := row_agree cx p ok D (L - 1) r (hlen r hr) hf hok x env v he
      (hF.use r hr hq (by omega))
    have := C05_upper r (L - 1) (D.vars cx.nm) b env _ hb' hag hq hat v
    rw [pt_own D x p (L - 1) v (by omega)] at this
    exact this.mp (hall r hr hq hat)

/-- The lower bound made from a row is in the class of the stride, and a bound for the values in the class
exactly as the row. -/
theorem strided_row (x : Nat → Int) (env : Env) (he : EnvOK cx.nm ok env x p) (s : Stride) (c : Row)
    (hst : st = some s) (hc : s.con = some c) (r : Row)
    (hr : r ∈ D.rows) (hq : r.isEq = false) (ha : 0 < r.at (L - 1)) :
    ∃ b, strideBound cx s c (L - 1) (D.vars cx.nm) r = some b ∧
      strideOk st (L - 1) cx.nm.nPar (Function.update x (L - 1) (b.eval env)) p ∧
      ∀ v, strideOk st (L - 1) cx.nm.nPar (Function.update x (L - 1) v) p →
        (b.eval env ≤ v ↔ r.holds (D.pt (Function.update x (L - 1) v) p)) := by
  obtain ⟨hfl, hwf, huse, hfa⟩ := hF.byRow s c hst hc
  have hpos := hF.pos s hst
  unfold Stride.wf at hwf
  rw [hc] at hwf
  simp only at hwf
  obtain ⟨h1, h2, h3⟩ := hwf
  have hl := hlen r hr
  unfold Dom.total at hl
  have hnb : r.coef.length - cx.nm.nPar = D.nIter + D.divs.length := by omega
  obtain ⟨b, hb, hbe⟩ := strideBound_eval cx hfl s c (L - 1) (D.vars cx.nm) r (by omega) (by omega) ha hpos env
    (hfa r hr hq ha)
  refine ⟨b, hb, ?_⟩
  have hvar : ∀ i, i < D.total cx.nm → D.usable ok i = true → ∀ v,
      (D.vars cx.nm i).eval env = D.pt (Function.update x (L - 1) v) p i := by
    intro i hi hu v
    refine D.vars_eval cx.nm ok env _ p (he.congr fun c hc => ?_) hf i hi hu
    rw [Function.update_of_ne]
    rintro rfl
    rw [hok] at hc
    cases hc
  have hoff := offVal_eq cx.nm s c (L - 1) (D.nIter + D.divs.length) (by omega)
    (fun i => (D.vars cx.nm i).eval env) x p h1 h2
    (fun i hi hz => by
      have hu : D.usable ok i = true := by
        unfold Dom.usable
        rw [if_pos (by omega)]
        exact huse c hc i hi hz
      rw [hvar i (by unfold Dom.total; omega) hu 0]
      unfold Dom.pt
      rw [if_pos (by omega), Function.update_of_ne (by omega)])
    (fun q hq => by
      have hu : D.usable ok (D.nIter + D.divs.length + q) = true := by
        unfold Dom.usable
        rw [if_neg (by omega), if_neg (by omega)]
      rw [hvar _ (by unfold Dom.total; omega) hu 0]
      unfold Dom.pt
      rw [if_neg (by omega), if_neg (by omega)]
      congr 1
      omega)
  rw [hnb, hl, hoff] at hbe
  have hval : ∀ v, r.val (D.pt (Function.update x (L - 1) v) p) =
      r.val (Function.update (fun i => (D.vars cx.nm i).eval env) (L - 1) 0) + r.at (L - 1) * v := by
    intro v
    rw [← Row.val_update, ← pt_own D x p (L - 1) v (by omega)]
    refine Row.val_congr r _ _ fun i hi => ?_
    by_cases hc : i = L - 1
    · subst hc
      simp
    · rw [Function.update_of_ne hc, Function.update_of_ne hc]
      have := Row.at_lt r i hi
      exact (hvar i (by unfold Dom.total; omega) (hF.use r hr hq (by omega) i hc hi) v).symm
  have hcls : ∀ v, strideOk st (L - 1) cx.nm.nPar (Function.update x (L - 1) v) p ↔
      s.stride ∣ Stride.conVal c (L - 1) (L - 1 + 1) cx.nm.nPar (Function.update
        (fun k => if k < L - 1 + 1 then x k else p (k - (L - 1 + 1))) (L - 1) 0) + c.at (L - 1) * v := by
    intro v
    rw [hst, strideOk_iff]
    unfold Stride.holds
    rw [hc]
    simp only
    rw [conVal_update c (L - 1) _ _ _ v h1 h2 (by omega)]
    exact ⟨fun h => h.2.2.2, fun h => ⟨h1, h2, h3, h⟩⟩
  obtain ⟨k1, k2⟩ := class_bound (f := r.val (Function.update (fun i => (D.vars cx.nm i).eval env) (L - 1) 0))
    ha hpos rfl h3
    (g := Stride.conVal c (L - 1) (L - 1 + 1) cx.nm.nPar (Function.update
        (fun k => if k < L - 1 + 1 then x k else p (k - (L - 1 + 1))) (L - 1) 0))
  rw [← hbe] at k1 k2
  refine ⟨(hcls _).2 k1, fun v hv => ?_⟩
  rw [k2 v ((hcls v).1 hv)]
  unfold Row.holds
  rw [hq, if_neg (by simp), hval v]

theorem lower_row (x : Nat → Int) (hK : K x) (env : Env) (he : EnvOK cx.nm ok env x p) (r : Row)
    (hr : r ∈ D.rows) (hq : r.isEq = false) (ha : 0 < r.at (L - 1)) :
    ∃ e, e ∈ loopBounds cx D.rows (L - 1) true st (D.vars cx.nm) := by
  obtain ⟨b, hb⟩ := bound_exists (D.vars cx.nm) (show r.at (L - 1) ≠ 0 by omega)
  unfold loopBounds
  simp only [List.mem_filterMap, List.mem_filter, validLower]
  unfold loopBoundElt
  cases st with
  | none => exact ⟨b, r, ⟨hr, ha, hq⟩, hb⟩
  | some s =>
    cases hc : s.con with
    | none => exact ⟨_, r, ⟨hr, ha, hq⟩, by simp only [hc]; rw [hb]; rfl⟩
    | some c =>
      obtain ⟨e, he', _⟩ := strided_row cx hsort p L ok K D (some s) otl hlen hf hF hL hD hok x env he s c rfl hc r hr hq ha
      exact ⟨e, r, ⟨hr, ha, hq⟩, by simp only [hc]; exact he'⟩

/-- Every collected lower bound is in the stride class, and is a bound for the values in the class
exactly as its row. -/
theorem lower_elt (x : Nat → Int) (hK : K x) (env : Env) (he : EnvOK cx.nm ok env x p) :
    (∀ e ∈ loopBounds cx D.rows (L - 1) true st (D.vars cx.nm),
      strideOk st (L - 1) cx.nm.nPar (Function.update x (L - 1) (e.eval env)) p ∧
      ∃ r ∈ D.rows, r.isEq = false ∧ 0 < r.at (L - 1) ∧
      ∀ v, strideOk st (L - 1) cx.nm.nPar (Function.update x (L - 1) v) p →
        (e.eval env ≤ v ↔ r.holds (D.pt (Function.update x (L - 1) v) p))) ∧
    (∀ r ∈ D.rows, r.isEq = false → 0 < r.at (L - 1) →
      ∃ e ∈ loopBounds cx D.rows (L - 1) true st (D.vars cx.nm),
      ∀ v, strideOk st (L - 1) cx.nm.nPar (Function.update x (L - 1) v) p →
        (e.eval env ≤ v ↔ r.holds (D.pt (Function.update x (L - 1) v) p))) := by
  -- what each row contributes
  have key : ∀ r ∈ D.rows, r.isEq = false → 0 < r.at (L - 1) → ∃ e,
      loopBoundElt cx (L - 1) true st (D.vars cx.nm) r = some e ∧
      strideOk st (L - 1) cx.nm.nPar (Function.update x (L - 1) (e.eval env)) p ∧
      ∀ v, strideOk st (L - 1) cx.nm.nPar (Function.update x (L - 1) v) p →
        (e.eval env ≤ v ↔ r.holds (D.pt (Function.update x (L - 1) v) p)) := by
    intro r hr hq ha
    obtain ⟨b, hb⟩ := bound_exists (D.vars cx.nm) (show r.at (L - 1) ≠ 0 by omega)
    have hb05 : ∀ v, r.holds (D.pt (Function.update x (L - 1) v) p) ↔ b.eval env ≤ v := by
      intro v
      have hag := row_agree cx p ok D (L - 1) r (hlen r hr) hf hok x env v he
        (hF.use r hr hq (by omega))
      have := C05_lower r (L - 1) (D.vars cx.nm) b env _ hb hag hq ha v
      rwa [pt_own D x p (L - 1) v (by omega)] at this
    cases hst : st with
    | none =>
      refine ⟨b, hb, trivial, fun v _ => (hb05 v).symm⟩
    | some s =>
      cases hc : s.con with
      | none =>
        refine ⟨updLower ⟨s.stride, s.offset⟩ b, by simp only [loopBoundElt, hc]; rw [hb]; rfl, ?_⟩
        have hso : ∀ v, strideOk (some s) (L - 1) cx.nm.nPar (Function.update x (L - 1) v) p ↔
            s.stride ∣ v - s.offset := by
          intro v
          unfold strideOk Stride.holds
          simp [hc]
        have hpos := hF.pos s hst
        have hcase := hF.constant s hst hc r hr hq ha b hb
        cases b with
        | cst c =>
          obtain ⟨w, hw, h1, hd, h2⟩ := C07_least c s.stride s.offset hpos
          simp only [updLower, hw, Expr.eval, Option.getD_some]
          rw [hso]
          refine ⟨hd, fun v hv => ?_⟩
          rw [hb05 v]
          simp only [Expr.eval]
          rw [hso] at hv
          exact ⟨fun h => by omega, fun h => h2 v h hv⟩
        | _ =>
          rcases hcase with ⟨c, hc'⟩ | hcase
          · cases hc'
          · simp only [updLower]
            exact ⟨(hso _).mpr (hcase x env hK he), fun v _ => (hb05 v).symm⟩
      | some c =>
        obtain ⟨e, h1, h2, h3⟩ :=
          strided_row cx hsort p L ok K D st otl hlen hf hF hL hD hok x env he s c hst hc r hr hq ha
        rw [hst] at h2 h3
        exact ⟨e, by simp only [loopBoundElt, hc]; exact h1, h2, h3⟩
  constructor
  · intro e he'
    unfold loopBounds at he'
    rw [List.mem_filterMap] at he'
    obtain ⟨r, hr, hre⟩ := he'
    rw [List.mem_filter, validLower] at hr
    obtain ⟨e', he1, he2, he3⟩ := key r hr.1 hr.2.2 hr.2.1
    have : e = e' := by
      have h := hre.symm.trans he1
      injection h
    subst this
    exact ⟨he2, r, hr.1, hr.2.2, hr.2.1, he3⟩
  · intro r hr hq ha
    obtain ⟨e', he1, he2, he3⟩ := key r hr hq ha
    refine ⟨e', ?_, he3⟩
    unfold loopBounds
    rw [List.mem_filterMap]
    exact ⟨r, by rw [List.mem_filter, validLower]; exact ⟨hr, ha, hq⟩, he1⟩

theorem lower_char (x : Nat → Int) (hK : K x) (env : Env) (he : EnvOK cx.nm ok env x p) (e : Expr)
    (h : loopBound cx D.rows (L - 1) true st (D.vars cx.nm) = some e) :
    strideOk st (L - 1) cx.nm.nPar (Function.update x (L - 1) (e.eval env)) p ∧
    ∀ v, strideOk st (L - 1) cx.nm.nPar (Function.update x (L - 1) v) p →
      (e.eval env ≤ v ↔ ∀ r ∈ D.rows, r.isEq = false → 0 < r.at (L - 1) →
        r.holds (D.pt (Function.update x (L - 1) v) p)) := by
  obtain ⟨hne, rfl⟩ := loopBound_some h
  obtain ⟨k1, k2⟩ := lower_elt cx hsort p L ok K D st otl hlen hf hF hL hD hok x hK env he
  simp only [if_true, Expr.eval, evalList_eq_map]
  have hne' : (cx.sort (loopBounds cx D.rows (L - 1) true st (D.vars cx.nm))).map (Expr.eval env) ≠ [] := by
    intro h'
    apply hne
    have := (hsort (loopBounds cx D.rows (L - 1) true st (D.vars cx.nm))).length_eq
    rw [List.map_eq_nil_iff.mp h'] at this
    exact List.eq_nil_of_length_eq_zero this.symm
  constructor
  · obtain ⟨e, he1, he2⟩ := List.mem_map.mp (max_mem _ hne')
    rw [← he2]
    exact (k1 e ((hsort _).mem_iff.mp he1)).1
  · intro v hv
    rw [max_le_iff _ hne']
    constructor
    · intro hall r hr hq ha
      obtain ⟨e, he1, he2⟩ := k2 r hr hq ha
      rw [← he2 v hv]
      exact hall _ (List.mem_map.mpr ⟨e, (hsort _).mem_iff.mpr he1, rfl⟩)
    · intro hall a ha
      obtain ⟨e, he1, rfl⟩ := List.mem_map.mp ha
      obtain ⟨_, r, hr, hq, hat, h3⟩ := k1 e ((hsort _).mem_iff.mp he1)
      exact (h3 v hv).mpr (hall r hr hq hat)

end bounds

theorem loopBound_exists (cx : Ctx) (rows : List Row) (col : Nat) (max : Bool) (st : Option Stride)
    (vars : Nat → Expr) (h : ∃ e, e ∈ loopBounds cx rows col max st vars) :
    ∃ e, loopBound cx rows col max st vars = some e := by
  unfold loopBound
  dsimp only
  split
  · rename_i h'
    rw [List.isEmpty_iff] at h'
    obtain ⟨e, he⟩ := h
    rw [h'] at he
    cases he
  · exact ⟨_, rfl⟩

/-- Execute an assignment and what follows, in a block or not. -/
theorem exec_assign (cx : Ctx) (col : Nat) (e : Expr) (body : List Stmt) (env env' : Env)
    (tr : List Event) :
    Exec (assign cx col e body) env tr env' ↔
      Exec body (Function.update env (cx.nm.at_ col) (e.eval env)) tr env' := by
  unfold assign
  split
  · rw [exec_block, exec_ass]
  · rw [exec_ass]

/-- A loop scans its domain. -/
theorem insertFor_spec (cx : Ctx) (hsort : ∀ l, (cx.sort l).Perm l) (hn : NamesOK cx.nm)
    (icmp : Int → Int → Int)
    (p : Nat → Int) (L : Nat) (ok : Nat → Bool) (eqs : List (Nat × Row))
    (strides : Nat → Option Stride)
    (K : (Nat → Int) → Prop) (hKl : Local L K) (D : Dom) (st : Option Stride) (otl : Bool)
    (hG : GuardOK cx p L ok eqs strides K D) (hF : ForOK cx p L ok K D st otl) (hL : 0 < L)
    (hD : L = D.nIter) (hokL : ∀ c, ok c = true → c < L - 1) (x : Nat → Int) (hK : K x) (env : Env)
    (he : EnvOK cx.nm ok env x p) (s : Step)
    (h : insertFor cx icmp D.rows L otl st (D.vars cx.nm) = some s)
    (hguard : ∀ r ∈ D.rows, Row.involvesOpt r (guardCol D L) = false → r.holds (D.pt x p)) :
    StepSpec cx.nm p L D st x env s ∧ s.rec_ = none ∧ s.assigned = true := by
  have hok : ok (L - 1) = false := by
    cases hc : ok (L - 1) with
    | false => rfl
    | true => have := hokL _ hc; omega
  obtain ⟨lo, hlo⟩ : ∃ lo, loopBound cx D.rows (L - 1) true st (D.vars cx.nm) = some lo := by
    apply loopBound_exists
    obtain ⟨r, hr, hq, ha⟩ := hF.lower
    exact lower_row cx hsort p L ok K D st otl hG.len hG.faithful hF hL hD hok x hK env he r hr hq ha
  obtain ⟨up, hup⟩ : ∃ up, loopBound cx D.rows (L - 1) false st (D.vars cx.nm) = some up := by
    apply loopBound_exists
    obtain ⟨r, hr, hq, ha⟩ := hF.upper
    obtain ⟨b, hb⟩ := bound_exists (D.vars cx.nm) (show r.at (L - 1) ≠ 0 by omega)
    refine ⟨b, ?_⟩
    unfold loopBounds
    rw [List.mem_filterMap]
    exact ⟨r, by rw [List.mem_filter, validUpper]; exact ⟨hr, ha, hq⟩, hb⟩
  -- the values scanned, in every environment with the same outer iterators
  have hscan : ∀ env1, EnvOK cx.nm ok env1 x p → ∀ v, Scanned cx.nm p L D st x v ↔
      strideOk st (L - 1) cx.nm.nPar (Function.update x (L - 1) v) p ∧ lo.eval env1 ≤ v ∧
        v ≤ up.eval env1 := by
    intro env1 he1 v
    have hl := (lower_char cx hsort p L ok K D st otl hG.len hG.faithful hF hL hD hok x hK env1 he1 lo hlo).2 v
    have hu := upper_char cx hsort p L ok K D st otl hG.len hG.faithful hF hL hD hok x env1 he1 up hup v
    unfold Scanned
    constructor
    · rintro ⟨h1, h2⟩
      exact ⟨h2, (hl h2).mpr (fun r hr _ _ => h1 r hr), hu.mpr (fun r hr _ _ => h1 r hr)⟩
    · rintro ⟨h1, h2, h3⟩
      refine ⟨hF.eqs _ (hKl.update x v hK) h1 ?_, h1⟩
      intro r hr hnot
      by_cases hz : r.at (L - 1) = 0
      · have hinv := (involves_own D L hL (by omega) r).mpr hz
        exact (row_outer cx p L ok eqs strides K D hG hok x v r hr hinv).mpr (hguard r hr hinv)
      · have hq : r.isEq = false := by
          cases hq : r.isEq with
          | false => rfl
          | true => exact absurd ⟨hq, hz⟩ hnot
        rcases lt_or_gt_of_ne hz with hlt | hgt
        · exact (hu.mp h3) r hr hq hlt
        · exact ((hl h1).mp h2) r hr hq hgt
  have hlos : ∀ env1, EnvOK cx.nm ok env1 x p →
      strideOk st (L - 1) cx.nm.nPar (Function.update x (L - 1) (lo.eval env1)) p := fun env1 he1 =>
    (lower_char cx hsort p L ok K D st otl hG.len hG.faithful hF hL hD hok x hK env1 he1 lo hlo).1
  -- the upper bound has the same value in all those environments
  have hupeq : ∀ env1, EnvOK cx.nm ok env1 x p → up.eval env1 = up.eval env := by
    intro env1 he1
    have h1 := upper_char cx hsort p L ok K D st otl hG.len hG.faithful hF hL hD hok x env1 he1 up hup
    have h2 := upper_char cx hsort p L ok K D st otl hG.len hG.faithful hF hL hD hok x env he up hup
    have h3 : ∀ v, v ≤ up.eval env1 ↔ v ≤ up.eval env := fun v => (h1 v).trans (h2 v).symm
    exact le_antisymm ((h3 _).mp (le_refl _)) ((h3 _).mpr (le_refl _))
  unfold insertFor at h
  dsimp only at h
  rw [hlo, hup] at h
  by_cases hbig : isBiggerConstant (some lo) (some up) = true
  · rw [if_pos hbig] at h
    injection h with h
    subst h
    refine ⟨⟨fun _ => ⟨fun v hv => ?_, fun _ => rfl⟩, fun h => by simp at h⟩, rfl, rfl⟩
    obtain ⟨l', u', h1, h2, h3⟩ := C10_dropped_loop_empty _ _ hbig
    injection h1 with h1
    injection h2 with h2
    subst h1 h2
    exact h3 env v ((hscan env he v).mp hv).2
  · rw [if_neg hbig] at h
    split at h
    · cases h
    · cases hot : otl with
      | true =>
        rw [hot, if_pos rfl] at h
        simp only at h
        injection h with h
        subst h
        refine ⟨⟨fun h => by simp at h, fun _ body run hpw hin hbody => ?_⟩, rfl, rfl⟩
        simp only
        set env1 := Function.update env (cx.nm.at_ (L - 1)) (lo.eval env) with henv1
        have hfr : Frame cx.nm L env env1 := (Frame.refl _ _ _).update (L - 1) (le_refl _) _
        have he1 : EnvOK cx.nm ok env1 x p := hfr.envOK hn hokL he
        have hcond : (∀ q ∈ [(⟨.term 1 (.name (cx.nm.at_ (L - 1))), up, -1⟩ : Eqn)], q.holds env1) ↔
            lo.eval env ≤ up.eval env := by
          simp only [List.mem_singleton, forall_eq]
          unfold Eqn.holds
          simp only [Expr.eval]
          rw [if_neg (by omega), if_neg (by omega)]
          rw [hupeq env1 he1, henv1]
          simp
        have hone : ∀ v, Scanned cx.nm p L D st x v → v = lo.eval env := by
          intro v hv
          have h1 := (hscan env he v).mp hv
          have h2 : Scanned cx.nm p L D st x (lo.eval env) :=
            (hscan env he _).mpr ⟨hlos env he, le_refl _, by omega⟩
          exact hF.once hot x hK _ _ hv h2
        match run, hpw, hin, hbody with
        | [], _, hin, _ =>
          refine ⟨env1, ?_, hfr⟩
          rw [exec_assign, exec_guard]
          right
          refine ⟨?_, by simp, rfl⟩
          rw [hcond]
          intro hle
          have := (hin (lo.eval env)).mpr ((hscan env he _).mpr ⟨hlos env he, le_refl _, hle⟩)
          simp at this
        | [(v, t)], _, hin, hbody =>
          have hv := (hin v).mp (by simp)
          have hve := hone v hv
          obtain ⟨env2, hx2, hf2⟩ := hbody (v, t) (by simp) env1 hfr (fun _ => by
            rw [henv1]; simp [hve])
          refine ⟨env2, ?_, hfr.trans (hf2.mono (by omega))⟩
          rw [exec_assign, exec_guard]
          left
          refine ⟨?_, by simpa using hx2⟩
          rw [hcond]
          have := ((hscan env he v).mp hv).2
          omega
        | (v, t) :: (w, t') :: _, hpw, hin, _ =>
          exfalso
          have hv := hone v ((hin v).mp (by simp))
          have hw := hone w ((hin w).mp (by simp))
          simp only [List.map_cons, List.pairwise_cons, List.mem_cons, forall_eq_or_imp] at hpw
          have := hpw.1.1
          omega
      | false =>
        rw [hot] at h
        simp only [Bool.false_eq_true, if_false] at h
        injection h with h
        subst h
        refine ⟨⟨fun h => by simp at h, fun _ body run hpw hin hbody => ?_⟩, rfl, rfl⟩
        simp only
        set stp : Int := strideStep st with hstp
        have hpos : 0 < stp := by
          rw [hstp]
          cases hst : st with
          | none => simp [strideStep]
          | some s => exact hF.pos s hst
        set env1 := Function.update env (cx.nm.at_ (L - 1)) (lo.eval env) with henv1
        have hfr : Frame cx.nm L env env1 := (Frame.refl _ _ _).update (L - 1) (le_refl _) _
        obtain ⟨env', hx, hP⟩ := forExec_scan (cx.nm.at_ (L - 1)) up stp hpos body (up.eval env)
          (fun e => Frame cx.nm L env e) (fun e hPe => hupeq e (hPe.envOK hn hokL he))
          (fun e v hPe => hPe.update (L - 1) (le_refl _) v) run env1 hfr hpw (by
            intro v
            rw [hin v, hscan env he v, henv1]
            simp only [Function.update_self]
            have hlo' := hlos env he
            have hdiv : lo.eval env ≤ v → (strideOk st (L - 1) cx.nm.nPar (Function.update x (L - 1) v) p ↔
                stp ∣ v - lo.eval env) := by
              intro _
              rw [hstp]
              cases hst : st with
              | none => simp [strideOk, strideStep]
              | some s =>
                rw [hst] at hlo'
                rw [strideOk_iff] at hlo' ⊢
                constructor
                · intro h1
                  exact s.diff (L - 1) (L - 1 + 1) cx.nm.nPar _ v _ (by omega) h1 hlo'
                · intro h1
                  exact s.shift (L - 1) (L - 1 + 1) cx.nm.nPar _ _ v (by omega) hlo' h1
            constructor
            · rintro ⟨h1, h2, h3⟩; exact ⟨h2, h3, (hdiv h2).mp h1⟩
            · rintro ⟨h2, h3, h1⟩; exact ⟨(hdiv h2).mpr h1, h2, h3⟩)
          (by
            intro vt hvt e hPe hev
            obtain ⟨e2, hx2, hf2⟩ := hbody vt hvt e hPe (fun _ => hev)
            exact ⟨e2, hx2, by rw [hf2.at hn (L - 1) (by omega)]; exact hev,
              hPe.trans (hf2.mono (by omega))⟩)
        refine ⟨env', ?_, hP⟩
        have := Exec.for_ (rest := []) (lb := lo) hx (.nil _)
        simpa using this

end Verif.ClastGen
