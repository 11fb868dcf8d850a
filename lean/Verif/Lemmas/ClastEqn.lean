import Verif.Lemmas.ClastFor

/-!
# Iterators defined by an equality or by a pair of inequalities
-/

namespace Verif.ClastGen

open Verif.IntOps Verif.Clast Verif.Bound Verif.Props.Arith Verif.Props.Bounds Verif.Props.Guards
open Verif.Props.Expr

/-- Assumptions about a domain whose iterator is given by the equality `u`. -/
structure EqOK (cx : Ctx) (p : Nat → Int) (L : Nat) (ok : Nat → Bool) (eqs : List (Nat × Row))
    (K : (Nat → Int) → Prop) (D : Dom) (st : Option Stride) (u : Row) : Prop where
  /-- outer iterators in the equality are available -/
  use : ∀ c, c < L - 1 → u.at c ≠ 0 → ok c = true
  /-- contract of `cloog_constraint_set_reduce`: nothing left only if there is always a solution -/
  reduceNone : u.at (L - 1) ≠ 1 → u.at (L - 1) ≠ -1 → cx.reduce eqs (L - 1) u none 0 = none →
    ∀ x, K x → ∃ v, u.holds (Function.update (D.pt x p) (L - 1) v)
  /-- otherwise an equality on the same column that has a solution when `u` has one -/
  reduceSome : ∀ c b, u.at (L - 1) ≠ 1 → u.at (L - 1) ≠ -1 →
    cx.reduce eqs (L - 1) u none 0 = some (c, b) →
    c.isEq = true ∧ c.coef.length = D.total cx.nm ∧ c.at (L - 1) ≠ 0 ∧
    (∀ i, i ≠ L - 1 → c.at i ≠ 0 → (i < L - 1 ∧ ok i = true) ∨ D.nIter + D.divs.length ≤ i) ∧
    ∀ x, K x → ((∃ v, c.holds (Function.update (D.pt x p) (L - 1) v)) ↔
      ∃ v, u.holds (Function.update (D.pt x p) (L - 1) v))
  /-- the equality and the constraints on outer iterators imply the others -/
  rest : ∀ x, K x → u.holds (D.pt x p) → (∀ r ∈ D.rows, r.at (L - 1) = 0 → r.holds (D.pt x p)) →
    D.mem x p
  /-- the stride is implied by the domain -/
  stride : ∀ x, K x → D.mem x p → strideOk st (L - 1) cx.nm.nPar x p
  /-- without `-otl` the iterator gets a loop from the value to itself and no modulo guard: the equality
  must always have a solution (see `C46_otl0_wrong_instance`), and the step of the loop be positive -/
  loop : cx.otl = false → (∀ s, st = some s → 0 < s.stride) ∧
    ∀ x, K x → ∃ v, u.holds (Function.update (D.pt x p) (L - 1) v)

/-- Assumptions about a domain whose iterator is given by the pair of inequalities `u`, `l`. -/
structure PairOK (cx : Ctx) (p : Nat → Int) (L : Nat) (ok : Nat → Bool) (eqs : List (Nat × Row))
    (strides : Nat → Option Stride)
    (K : (Nat → Int) → Prop) (D : Dom) (st : Option Stride) (u l : Row) : Prop where
  /-- outer iterators in the pair are available -/
  use : ∀ c, c < L - 1 → u.at c ≠ 0 → ok c = true
  /-- unless there is always a value: contract of `cloog_constraint_set_reduce`, and the operand of the
  `%` in the test is not negative (see `C13_negative_operand`) -/
  reduceNone : l.at (L - 1) - 1 ≠ u.cst + l.cst →
    cx.reduce eqs (L - 1) u (some l) (u.cst + l.cst) = none →
    ∀ x, K x → ∃ v, u.holds (Function.update (D.pt x p) (L - 1) v) ∧
      l.holds (Function.update (D.pt x p) (L - 1) v)
  reduceSome : ∀ c b, l.at (L - 1) - 1 ≠ u.cst + l.cst →
    cx.reduce eqs (L - 1) u (some l) (u.cst + l.cst) = some (c, b) →
    c.isEq = false ∧ 0 ≤ b ∧ c.coef.length = D.total cx.nm ∧ c.at (L - 1) ≠ 0 ∧
    (∀ i, i ≠ L - 1 → c.at i ≠ 0 → (i < L - 1 ∧ ok i = true) ∨ D.nIter + D.divs.length ≤ i) ∧
    (∀ q e m, modGuardConstraint cx.nm strides L true b c (L - 1) = some (.test q) →
      q.lhs = .bin .mod e m → ∀ x env, K x → EnvOK cx.nm ok env x p → 0 ≤ e.eval env) ∧
    ∀ x, K x → ((∃ v, 0 ≤ c.val (Function.update (D.pt x p) (L - 1) v) ∧
        c.val (Function.update (D.pt x p) (L - 1) v) ≤ b) ↔
      ∃ v, u.holds (Function.update (D.pt x p) (L - 1) v) ∧
        l.holds (Function.update (D.pt x p) (L - 1) v))
  /-- the stride is implied by the domain -/
  stride : ∀ x, K x → D.mem x p → strideOk st (L - 1) cx.nm.nPar x p
  /-- without `-otl` the iterator gets a loop -/
  pos : cx.otl = false → ∀ s, st = some s → 0 < s.stride

/-- The environment at level `L` for the modulo guard of a constraint on column `L - 1`. -/
theorem modCtx_own (cx : Ctx) (p : Nat → Int) (L : Nat) (ok : Nat → Bool)
    (strides : Nat → Option Stride) (D : Dom) (env : Env) (x : Nat → Int)
    (hN : Known cx p L ok strides env x) (hL : 0 < L) (hD : L = D.nIter) (c : Row)
    (hlen : c.coef.length = D.total cx.nm) (hnz : c.at (L - 1) ≠ 0)
    (huse : ∀ i, i ≠ L - 1 → c.at i ≠ 0 → (i < L - 1 ∧ ok i = true) ∨ D.nIter + D.divs.length ≤ i) :
    ModCtx cx.nm strides L c (L - 1) env (D.pt x p)
      (fun i => (i < L - 1 ∧ ok i = true) ∨ D.nIter + D.divs.length ≤ i) := by
  have hnb : c.coef.length - cx.nm.nPar = D.nIter + D.divs.length := by
    rw [hlen]; unfold Dom.total; omega
  have hptx : ∀ i, i < D.nIter → D.pt x p i = x i := by
    intro i hi
    unfold Dom.pt
    rw [if_pos hi]
  have hptp : ∀ i, D.nIter + D.divs.length ≤ i → D.pt x p i = p (i - (D.nIter + D.divs.length)) := by
    intro i hi
    unfold Dom.pt
    rw [if_neg (by omega), if_neg (by omega)]
    congr 1
    omega
  refine ⟨by rw [hlen]; unfold Dom.total; omega, by omega, hnz, ?_, ?_, huse, ?_, ?_⟩
  · intro i hi hP
    rw [hnb]
    unfold modName
    rcases hP with ⟨h1, h2⟩ | h1
    · rw [if_pos (by omega), hN.env.it i h2, hptx i (by omega)]
    · rw [if_neg (by omega), hN.env.par _ (by rw [hlen] at hi; unfold Dom.total at hi; omega),
        hptp i h1]
  · intro i hi
    exact .inr (by omega)
  · intro i hi1 hi2 s hs
    rw [hnb, strideOk_pt D s i cx.nm.nPar x p _ (by omega) (fun k hk => hptx k (by omega))
      (fun q => by rw [hptp _ (by omega)]; congr 1; omega)]
    exact (hN.stride i s hi1 hs).1
  · intro j hj1 hj2 s r hs hr i hi hz
    exact .inl ⟨by omega, (hN.stride j s hj1 hs).2 r hr i hi hz⟩

/-- Columns after the defined one do not occur, so the column may be changed in the point or in the
iterators. -/
theorem holds_own (D : Dom) (x p : Nat → Int) (col : Nat) (v : Int) (hcol : col < D.nIter) (u : Row)
    (h : ∀ c, c < D.nIter + D.divs.length → D.nIter ≤ c → u.at c = 0) :
    u.holds (Function.update (D.pt x p) col v) ↔ u.holds (D.pt (Function.update x col v) p) := by
  apply Row.holds_congr
  intro c hc
  by_cases hcc : c = col
  · subst hcc
    unfold Dom.pt
    rw [if_pos hcol]
    simp
  · rw [Function.update_of_ne hcc]
    unfold Dom.pt
    by_cases h1 : c < D.nIter
    · rw [if_pos h1, if_pos h1, Function.update_of_ne hcc]
    · rw [if_neg h1, if_neg h1]
      by_cases h2 : c < D.nIter + D.divs.length
      · exact absurd (h c h2 (by omega)) hc
      · rw [if_neg h2, if_neg h2]

/-- Around an assignment: the scanned value, if any, is the value assigned, and the test says whether
there is one. -/
theorem single_spec (cx : Ctx) (p : Nat → Int) (L : Nat) (D : Dom) (st : Option Stride)
    (x : Nat → Int) (env : Env) (o : ModOut) (ho : o ≠ .unsat) (e : Expr) (rec_ : Option Row)
    (asg : Bool) (wrap : List Stmt → List Stmt)
    (hwrap : wrap = if asg then fun body => o.wrap (assign cx (L - 1) e body) else o.wrap)
    (huniq : ∀ v, Scanned cx.nm p L D st x v → v = e.eval env)
    (hall : Allows env o ↔ ∃ v, Scanned cx.nm p L D st x v) :
    StepSpec cx.nm p L D st x env ⟨true, wrap, rec_, asg⟩ := by
  refine ⟨fun h => by simp at h, fun _ body run hpw hin hbody => ?_⟩
  simp only
  have hw : ∀ (b : List Stmt) (t : List Event) (env' : Env), Exec (o.wrap b) env t env' ↔
      (Allows env o ∧ Exec b env t env') ∨ (¬ Allows env o ∧ t = [] ∧ env' = env) := by
    intro b t env'
    cases o with
    | ok => simp [ModOut.wrap, Allows]
    | unsat => exact absurd rfl ho
    | test q =>
      simp only [ModOut.wrap, Allows]
      rw [exec_guard]
      simp
  match run, hpw, hin, hbody with
  | [], _, hin, _ =>
    refine ⟨env, ?_, Frame.refl _ _ _⟩
    have hno : ¬ Allows env o := by
      rw [hall]
      rintro ⟨v, hv⟩
      have := (hin v).mpr hv
      simp at this
    rw [hwrap]
    cases asg with
    | true => simp only [if_true]; rw [hw]; exact .inr ⟨hno, by simp, rfl⟩
    | false => simp only [Bool.false_eq_true, if_false]; rw [hw]; exact .inr ⟨hno, by simp, rfl⟩
  | [(v, t)], _, hin, hbody =>
    have hv := (hin v).mp (by simp)
    have hve := huniq v hv
    have hyes : Allows env o := hall.mpr ⟨v, hv⟩
    rw [hwrap]
    cases asg with
    | true =>
      obtain ⟨env2, hx2, hf2⟩ := hbody (v, t) (by simp)
        (Function.update env (cx.nm.at_ (L - 1)) (e.eval env))
        ((Frame.refl _ _ _).update (L - 1) (le_refl _) _) (fun _ => by simp [hve])
      refine ⟨env2, ?_, ((Frame.refl _ _ _).update (L - 1) (le_refl _) _).trans (hf2.mono (by omega))⟩
      simp only [if_true]
      rw [hw]
      refine .inl ⟨hyes, ?_⟩
      rw [exec_assign]
      simpa using hx2
    | false =>
      obtain ⟨env2, hx2, hf2⟩ := hbody (v, t) (by simp) env (Frame.refl _ _ _) (fun h => by simp at h)
      refine ⟨env2, ?_, hf2.mono (by omega)⟩
      simp only [Bool.false_eq_true, if_false]
      rw [hw]
      exact .inl ⟨hyes, by simpa using hx2⟩
  | (v, t) :: (w, t') :: _, hpw, hin, _ =>
    exfalso
    have hv := huniq v ((hin v).mp (by simp))
    have hw' := huniq w ((hin w).mp (by simp))
    simp only [List.map_cons, List.pairwise_cons, List.mem_cons, forall_eq_or_imp] at hpw
    have := hpw.1.1
    omega

theorem guard_rows (cx : Ctx) (p : Nat → Int) (L : Nat) (ok : Nat → Bool) (eqs : List (Nat × Row))
    (strides : Nat → Option Stride) (K : (Nat → Int) → Prop) (D : Dom)
    (hG : GuardOK cx p L ok eqs strides K D) (hL : 0 < L) (hD : L = D.nIter)
    (hok : ok (L - 1) = false) (x : Nat → Int)
    (hguard : ∀ r ∈ D.rows, Row.involvesOpt r (guardCol D L) = false → r.holds (D.pt x p)) (v : Int) :
    ∀ r ∈ D.rows, r.at (L - 1) = 0 → r.holds (D.pt (Function.update x (L - 1) v) p) := by
  intro r hr hz
  have hinv := (involves_own D L hL (by omega) r).mpr hz
  exact (row_outer cx p L ok eqs strides K D hG hok x v r hr hinv).mpr (hguard r hr hinv)

/-- Around a loop that runs at most once. -/
theorem asLoop_spec (cx : Ctx) (hn : NamesOK cx.nm) (p : Nat → Int) (L : Nat) (hL : 0 < L)
    (ok : Nat → Bool) (hokL : ∀ c, ok c = true → c < L - 1) (D : Dom) (st : Option Stride)
    (x : Nat → Int) (env : Env) (he : EnvOK cx.nm ok env x p) (e1 e2 : Expr) (stp : Int)
    (hpos : 0 < stp)
    (hscan : ∀ v, Scanned cx.nm p L D st x v ↔ e1.eval env ≤ v ∧ v ≤ e2.eval env)
    (hone : ∀ v, e1.eval env ≤ v → v ≤ e2.eval env → v = e1.eval env)
    (hup : ∀ env1, EnvOK cx.nm ok env1 x p → e2.eval env1 = e2.eval env) :
    StepSpec cx.nm p L D st x env ⟨true, fun body => [.for_ (cx.nm.at_ (L - 1)) (some e1) (some e2)
      stp body], none, true⟩ := by
  refine ⟨fun h => by simp at h, fun _ body run hpw hin hbody => ?_⟩
  simp only
  set env1 := Function.update env (cx.nm.at_ (L - 1)) (e1.eval env) with henv1
  have hfr : Frame cx.nm L env env1 := (Frame.refl _ _ _).update (L - 1) (le_refl _) _
  obtain ⟨env', hx, hP⟩ := forExec_scan (cx.nm.at_ (L - 1)) e2 stp hpos body (e2.eval env)
    (fun e => Frame cx.nm L env e) (fun e hPe => hup e (hPe.envOK hn hokL he))
    (fun e v hPe => hPe.update (L - 1) (le_refl _) v) run env1 hfr hpw (by
      intro v
      rw [hin v, hscan v, henv1]
      simp only [Function.update_self]
      constructor
      · rintro ⟨h1, h2⟩
        exact ⟨h1, h2, by rw [hone v h1 h2]; simp⟩
      · rintro ⟨h1, h2, _⟩; exact ⟨h1, h2⟩)
    (by
      intro vt hvt e hPe hev
      obtain ⟨e2, hx2, hf2⟩ := hbody vt hvt e hPe (fun _ => hev)
      exact ⟨e2, hx2, by rw [hf2.at hn (L - 1) (by omega)]; exact hev,
        hPe.trans (hf2.mono (by omega))⟩)
  refine ⟨env', ?_, hP⟩
  have := Exec.for_ (rest := []) (lb := e1) hx (.nil _)
  simpa using this

theorem strideStep_pos {st : Option Stride} (h : ∀ s, st = some s → 0 < s.stride) :
    0 < strideStep st := by
  cases st with
  | none => simp [strideStep]
  | some s => exact h s rfl

/-- The values scanned when the iterator is given by an equality, and the expression for them. -/
theorem eqn_facts (cx : Ctx) (p : Nat → Int) (L : Nat) (ok : Nat → Bool) (eqs : List (Nat × Row))
    (strides : Nat → Option Stride)
    (K : (Nat → Int) → Prop) (hKl : Local L K) (D : Dom) (st : Option Stride)
    (hG : GuardOK cx p L ok eqs strides K D) (hL : 0 < L)
    (hD : L = D.nIter) (x : Nat → Int) (hK : K x) (hok : ok (L - 1) = false)
    (u : Row) (hu : D.definingEquality D.rows (L - 1) = some u)
    (huse : ∀ c, c < L - 1 → u.at c ≠ 0 → ok c = true)
    (hrest : ∀ x, K x → u.holds (D.pt x p) →
      (∀ r ∈ D.rows, r.at (L - 1) = 0 → r.holds (D.pt x p)) → D.mem x p)
    (hstride : ∀ x, K x → D.mem x p → strideOk st (L - 1) cx.nm.nPar x p)
    (hguard : ∀ r ∈ D.rows, Row.involvesOpt r (guardCol D L) = false → r.holds (D.pt x p)) :
    (∀ v, Scanned cx.nm p L D st x v ↔ u.holds (Function.update (D.pt x p) (L - 1) v)) ∧
    ∃ e, boundFromConstraint u (L - 1) (D.vars cx.nm) = some e ∧
      (∀ env, EnvOK cx.nm ok env x p → ∀ v, Scanned cx.nm p L D st x v → v = e.eval env) ∧
      ∀ env env1, EnvOK cx.nm ok env x p → EnvOK cx.nm ok env1 x p → e.eval env1 = e.eval env := by
  obtain ⟨hu1, hu2, hu3, hu4⟩ := definingEquality_spec D _ _ u hu
  have hlen := hG.len u hu1
  have hcols : ∀ i, i ≠ L - 1 → u.at i ≠ 0 →
      (i < L - 1 ∧ ok i = true) ∨ D.nIter + D.divs.length ≤ i := by
    intro i hi hz
    by_cases h1 : i < L - 1
    · exact .inl ⟨h1, huse i h1 hz⟩
    · by_cases h2 : i < D.nIter + D.divs.length
      · exact absurd (hu4 i h2 (by omega)) hz
      · exact .inr (by omega)
  have hdivs : ∀ c, c < D.nIter + D.divs.length → D.nIter ≤ c → u.at c = 0 :=
    fun c h1 h2 => hu4 c h1 (by omega)
  have husable : ∀ c, c ≠ L - 1 → u.at c ≠ 0 → D.usable ok c = true := by
    intro c hc hz
    unfold Dom.usable
    rcases hcols c hc hz with ⟨h1, h2⟩ | h1
    · rw [if_pos (by omega)]; exact h2
    · rw [if_neg (by omega), if_neg (by omega)]
  have hscan : ∀ v, Scanned cx.nm p L D st x v ↔ u.holds (D.pt (Function.update x (L - 1) v) p) := by
    intro v
    unfold Scanned
    constructor
    · rintro ⟨h1, _⟩; exact h1 u hu1
    · intro h1
      have hm := hrest _ (hKl.update x v hK) h1
        (guard_rows cx p L ok eqs strides K D hG hL hD hok x hguard v)
      exact ⟨hm, hstride _ (hKl.update x v hK) hm⟩
  obtain ⟨e, he⟩ := bound_exists (D.vars cx.nm) hu3
  have huniq1 : ∀ env, EnvOK cx.nm ok env x p → ∀ v, Scanned cx.nm p L D st x v → v = e.eval env := by
    intro env hN v hv
    rw [hscan] at hv
    have hag := row_agree cx p ok D (L - 1) u hlen hG.faithful hok x env v hN husable
    refine C05_equality u (L - 1) (D.vars cx.nm) e env _ he hag hu2 v ?_
    rw [pt_own D x p (L - 1) v (by omega)]
    exact hv
  refine ⟨fun v => ?_, e, he, huniq1, fun env env1 h0 h1 => ?_⟩
  on_goal 2 =>
    have hag : ∀ env, EnvOK cx.nm ok env x p → Agree (D.vars cx.nm) env (D.pt x p) (L - 1) u := by
      intro env h
      have := row_agree cx p ok D (L - 1) u hlen hG.faithful hok x env (x (L - 1)) h husable
      rwa [Function.update_eq_self] at this
    obtain ⟨_, _, _, a1, a2⟩ := bound_eval u (L - 1) (D.vars cx.nm) e he env _ (hag env h0)
    obtain ⟨_, _, _, b1, b2⟩ := bound_eval u (L - 1) (D.vars cx.nm) e he env1 _ (hag env1 h1)
    rcases lt_or_gt_of_ne hu3 with hlt | hgt
    · rw [a2 hlt hu2, b2 hlt hu2]
    · rw [a1 hgt hu2, b1 hgt hu2]
  rw [hscan, holds_own D x p (L - 1) v (by omega) u hdivs]

/-- An iterator given by an equality. -/
theorem insertEquation_spec (cx : Ctx) (hn : NamesOK cx.nm)
    (p : Nat → Int) (L : Nat) (ok : Nat → Bool) (eqs : List (Nat × Row))
    (strides : Nat → Option Stride)
    (K : (Nat → Int) → Prop) (hKl : Local L K) (D : Dom) (st : Option Stride)
    (hstr : strides (L - 1) = st)
    (hG : GuardOK cx p L ok eqs strides K D) (hL : 0 < L)
    (hD : L = D.nIter) (x : Nat → Int) (hK : K x) (env : Env)
    (hN : Known cx p L ok strides env x) (u : Row) (hu : D.definingEquality D.rows (L - 1) = some u)
    (hE : EqOK cx p L ok eqs K D st u) (s : Step)
    (h : insertEquation cx D L eqs strides u none = some s)
    (hguard : ∀ r ∈ D.rows, Row.involvesOpt r (guardCol D L) = false → r.holds (D.pt x p)) :
    StepSpec cx.nm p L D st x env s ∧ (s.go = true →
      s.rec_ = (if cx.otl then some u else none) ∧
      s.assigned = !(cx.otl && equalAllow cx L (eqType D cx.nm.nPar u (L - 1)))) := by
  obtain ⟨hu1, hu2, hu3, hu4⟩ := definingEquality_spec D _ _ u hu
  have hlen := hG.len u hu1
  have hok : ok (L - 1) = false := by
    cases hc : ok (L - 1) with
    | false => rfl
    | true => have := hN.okL _ hc; omega
  obtain ⟨hscan, e, he, huniq1, _⟩ := eqn_facts cx p L ok eqs strides K hKl D st hG hL hD x hK hok u hu
    hE.use hE.rest hE.stride hguard
  have huniq := huniq1 env hN.env
  have hex : (∃ v, Scanned cx.nm p L D st x v) ↔
      ∃ v, u.holds (Function.update (D.pt x p) (L - 1) v) := exists_congr hscan
  have hmod : ∀ o, modGuard cx D eqs strides L u none (L - 1) = some o →
      (Allows env o ↔ ∃ v, Scanned cx.nm p L D st x v) := by
    intro o ho
    rw [hex]
    unfold modGuard at ho
    dsimp only at ho
    by_cases hv : u.at (L - 1) = 1 ∨ u.at (L - 1) = -1
    · rw [if_pos hv] at ho
      injection ho with ho
      subst ho
      simp only [Allows, true_iff]
      rw [solvable_iff u _ _ hu2, cabs_eq, abs_dvd]
      rcases hv with h | h
      · rw [h]; exact one_dvd _
      · rw [h]; exact ⟨-_, by ring⟩
    · rw [if_neg hv, if_neg (by simp), if_pos (by omega)] at ho
      simp only [Option.isSome_none] at ho
      have hv1 : u.at (L - 1) ≠ 1 := fun h => hv (.inl h)
      have hv2 : u.at (L - 1) ≠ -1 := fun h => hv (.inr h)
      cases hr : cx.reduce eqs (L - 1) u none 0 with
      | none =>
        rw [hr] at ho
        simp only at ho
        injection ho with ho
        subst ho
        simp only [Allows, true_iff]
        exact hE.reduceNone hv1 hv2 hr x hK
      | some cb =>
        obtain ⟨c, b⟩ := cb
        rw [hr] at ho
        simp only at ho
        obtain ⟨r1, r2, r3, r4, r5⟩ := hE.reduceSome c b hv1 hv2 hr
        obtain ⟨o', ho', hall⟩ := C12_modulo_equality cx.nm strides L b c (L - 1) env (D.pt x p) _
          (modCtx_own cx p L ok strides D env x hN hL hD c r2 r3 r4) r1
        rw [ho] at ho'
        injection ho' with ho'
        subst ho'
        rw [hall, r5 x hK]
  unfold insertEquation at h
  dsimp only at h
  cases hotl : cx.otl with
  | false =>
    rw [if_pos (by simp [hotl]), he] at h
    simp only [Option.bind_eq_bind, Option.bind_some] at h
    injection h with h
    subst h
    obtain ⟨hpos, hsol⟩ := hE.loop hotl
    obtain ⟨w, hw⟩ := hex.mpr (hsol x hK)
    rw [hstr]
    refine ⟨asLoop_spec cx hn p L hL ok hN.okL D st x env hN.env _ _ _ (strideStep_pos hpos) ?_ ?_ ?_,
      fun _ => ⟨rfl, rfl⟩⟩
    · intro v
      rw [copy_eq]
      constructor
      · intro hv
        rw [huniq v hv]
        exact ⟨le_refl _, le_refl _⟩
      · rintro ⟨h1, h2⟩
        have : v = w := by rw [huniq w hw]; omega
        rw [this]; exact hw
    · intro v h1 h2
      rw [copy_eq] at h1 ⊢
      omega
    · intro env1 he1
      rw [← huniq w hw, ← huniq1 env1 he1 w hw]
  | true =>
  rw [if_neg (by simp [hotl])] at h
  cases ho : modGuard cx D eqs strides L u none (L - 1) with
  | none => rw [ho] at h; simp at h
  | some o =>
    rw [ho] at h
    simp only [Option.bind_eq_bind, Option.bind_some] at h
    have hall := hmod o ho
    by_cases hun : o = .unsat
    · subst hun
      simp only at h
      injection h with h
      subst h
      refine ⟨⟨fun _ => ⟨fun v hv => ?_, fun _ => rfl⟩, fun h => by simp at h⟩, fun h => by simp at h⟩
      simp only [Allows, false_iff] at hall
      exact hall ⟨v, hv⟩
    · have hstep : s = ⟨true, (if (!equalAllow cx L (eqType D cx.nm.nPar u (L - 1))) then
          fun body => o.wrap (assign cx (L - 1) e body) else o.wrap), some u,
          !equalAllow cx L (eqType D cx.nm.nPar u (L - 1))⟩ := by
        cases o with
        | unsat => exact absurd rfl hun
        | ok =>
          simp only [he, Option.bind_some] at h
          cases hea : equalAllow cx L (eqType D cx.nm.nPar u (L - 1)) with
          | true => rw [hea] at h; simpa using h.symm
          | false => rw [hea] at h; simpa using h.symm
        | test q =>
          simp only [he, Option.bind_some] at h
          cases hea : equalAllow cx L (eqType D cx.nm.nPar u (L - 1)) with
          | true => rw [hea] at h; simpa using h.symm
          | false => rw [hea] at h; simpa using h.symm
      rw [hstep]
      exact ⟨single_spec cx p L D st x env o hun e _ _ _ rfl huniq hall, fun _ => ⟨rfl, rfl⟩⟩

theorem findPair_spec (D : Dom) (nPar col : Nat) (hlt : col < D.nIter + D.divs.length) :
    ∀ (rows : List Row) (u l : Row), findPair D nPar col rows = some (u, l) →
    u ∈ rows ∧ l ∈ rows ∧ u.isEq = false ∧ l.isEq = false ∧ u.at col < -1 ∧
      (∀ c, c < D.nIter + D.divs.length → col < c → u.at c = 0) ∧
      (∀ c, c < D.nIter + D.divs.length + nPar → l.at c = - u.at c) ∧
      (u.cst + l.cst < - u.at col)
  | [], u, l, h => by simp [findPair] at h
  | r :: rs, u, l, h => by
    have ih := findPair_spec D nPar col hlt rs u l
    have wk : findPair D nPar col rs = some (u, l) → _ := fun h' => by
      obtain ⟨h1, h2, h3⟩ := ih h'
      exact (⟨List.mem_cons_of_mem _ h1, List.mem_cons_of_mem _ h2, h3⟩ : u ∈ r :: rs ∧ l ∈ r :: rs ∧ _)
    unfold findPair at h
    split at h
    · rename_i hc
      simp only [Bool.and_eq_true, Bool.not_eq_true', decide_eq_true_eq, List.all_eq_true,
        List.mem_range, Bool.or_eq_true, beq_iff_eq] at hc
      obtain ⟨⟨hc1, hc2⟩, hc3⟩ := hc
      split at h
      · rename_i s hs
        have hs1 := List.mem_of_find?_eq_some hs
        have hs2 := List.find?_some hs
        simp only [Bool.and_eq_true, Bool.not_eq_true', decide_eq_true_eq, oppositeCoef,
          List.all_eq_true, List.mem_range, beq_iff_eq] at hs2
        obtain ⟨⟨hs3, hs4⟩, hs5⟩ := hs2
        rw [cabs_eq] at hc2
        rw [cabs_eq, cabs_eq] at hs5
        have h5 := abs_lt.mp hs5
        split at h
        · rename_i hpos
          injection h with h
          injection h with h1 h2
          subst h1 h2
          rw [abs_of_pos hpos] at hc2 h5
          have := hs4 col (by omega)
          refine ⟨List.mem_cons_of_mem _ hs1, by simp, hs3, hc1, by omega, ?_, ?_, by omega⟩
          · intro c h1 h2
            rw [hs4 c (by omega)]
            rcases hc3 c h1 with h | h
            · omega
            · rw [h]; rfl
          · intro c h1
            rw [hs4 c h1]; omega
        · rename_i hneg
          injection h with h
          injection h with h1 h2
          subst h1 h2
          have hne : r.at col ≠ 0 := by
            intro h0; rw [h0] at hc2; simp at hc2
          rw [abs_of_neg (by omega)] at hc2 h5
          refine ⟨by simp, List.mem_cons_of_mem _ hs1, hc1, hs3, by omega, ?_, ?_, by omega⟩
          · intro c h1 h2
            rcases hc3 c h1 with h | h
            · omega
            · exact h
          · intro c h1
            exact hs4 c h1
      · exact wk h
    · exact wk h

theorem val_opposite (u l : Row) (n : Nat) (hu : u.coef.length = n) (hl : l.coef.length = n)
    (h : ∀ c, c < n → l.at c = - u.at c) (y : Point) : l.val y = u.cst + l.cst - u.val y := by
  have hsum : dotFrom l.coef 0 y = - dotFrom u.coef 0 y := by
    rw [dotFrom_eq_sum, dotFrom_eq_sum, hl, hu, ← Finset.sum_neg_distrib]
    refine Finset.sum_congr rfl (fun k hk => ?_)
    have := h k (Finset.mem_range.mp hk)
    simp only [Row.at] at this
    rw [this]; ring
  unfold Row.val
  rw [hsum]; ring

/-- An iterator given by a pair of inequalities. -/
theorem insertPair_spec (cx : Ctx) (hn : NamesOK cx.nm)
    (p : Nat → Int) (L : Nat) (ok : Nat → Bool) (eqs : List (Nat × Row))
    (strides : Nat → Option Stride)
    (K : (Nat → Int) → Prop) (hKl : Local L K) (D : Dom) (st : Option Stride)
    (hstr : strides (L - 1) = st)
    (hG : GuardOK cx p L ok eqs strides K D) (hL : 0 < L)
    (hD : L = D.nIter) (x : Nat → Int) (hK : K x) (env : Env)
    (hN : Known cx p L ok strides env x) (u l : Row)
    (hu : D.definingInequalities cx.nm.nPar D.rows (L - 1) = some (u, l))
    (hE : PairOK cx p L ok eqs strides K D st u l) (s : Step)
    (h : insertEquation cx D L eqs strides u (some l) = some s)
    (hguard : ∀ r ∈ D.rows, Row.involvesOpt r (guardCol D L) = false → r.holds (D.pt x p)) :
    StepSpec cx.nm p L D st x env s ∧ s.rec_ = none ∧ s.assigned = true := by
  have hpair : findPair D cx.nm.nPar (L - 1) D.rows = some (u, l) ∧
      ∀ r ∈ D.rows, r.at (L - 1) ≠ 0 → r = u ∨ r = l := by
    unfold Dom.definingInequalities at hu
    split at hu
    · cases hu
    · rename_i u' l' hfp
      split at hu
      · cases hu
      · rename_i hany
        injection hu with hu
        injection hu with h1 h2
        subst h1 h2
        refine ⟨hfp, fun r hr hz => ?_⟩
        simp only [Bool.or_eq_true, List.any_eq_true, not_or, not_exists, not_and] at hany
        have := hany.1 r hr
        simp only [Row.involves, Bool.and_eq_true, bne_iff_ne, ne_eq, hz, not_false_eq_true, true_and,
          Bool.not_eq_true', Bool.or_eq_false_iff, beq_eq_false_iff_ne] at this
        by_contra hn
        rw [not_or] at hn
        exact this ⟨by simp, hn⟩
  obtain ⟨hfp, honly⟩ := hpair
  obtain ⟨hu1, hl1, hu2, hl2, hu3, hu4, hopp, hsum⟩ :=
    findPair_spec D cx.nm.nPar (L - 1) (by omega) D.rows u l hfp
  have hlen := hG.len u hu1
  have hlenl := hG.len l hl1
  have hla : l.at (L - 1) = - u.at (L - 1) := hopp _ (by omega)
  have hok : ok (L - 1) = false := by
    cases hc : ok (L - 1) with
    | false => rfl
    | true => have := hN.okL _ hc; omega
  have hcols : ∀ i, i ≠ L - 1 → u.at i ≠ 0 →
      (i < L - 1 ∧ ok i = true) ∨ D.nIter + D.divs.length ≤ i := by
    intro i hi hz
    by_cases h1 : i < L - 1
    · exact .inl ⟨h1, hE.use i h1 hz⟩
    · by_cases h2 : i < D.nIter + D.divs.length
      · exact absurd (hu4 i h2 (by omega)) hz
      · exact .inr (by omega)
  have hdivs : ∀ c, c < D.nIter + D.divs.length → D.nIter ≤ c → u.at c = 0 :=
    fun c h1 h2 => hu4 c h1 (by omega)
  have hdivsl : ∀ c, c < D.nIter + D.divs.length → D.nIter ≤ c → l.at c = 0 :=
    fun c h1 h2 => by rw [hopp c (by omega), hdivs c h1 h2]; rfl
  have husable : ∀ c, c ≠ L - 1 → u.at c ≠ 0 → D.usable ok c = true := by
    intro c hc hz
    unfold Dom.usable
    rcases hcols c hc hz with ⟨h1, h2⟩ | h1
    · rw [if_pos (by omega)]; exact h2
    · rw [if_neg (by omega), if_neg (by omega)]
  have hscan : ∀ v, Scanned cx.nm p L D st x v ↔ u.holds (Function.update (D.pt x p) (L - 1) v) ∧
      l.holds (Function.update (D.pt x p) (L - 1) v) := by
    intro v
    rw [holds_own D x p (L - 1) v (by omega) u hdivs, holds_own D x p (L - 1) v (by omega) l hdivsl]
    unfold Scanned
    constructor
    · rintro ⟨h1, _⟩; exact ⟨h1 u hu1, h1 l hl1⟩
    · rintro ⟨h1, h2⟩
      have hm : D.mem (Function.update x (L - 1) v) p := by
        intro r hr
        by_cases hz : r.at (L - 1) = 0
        · exact guard_rows cx p L ok eqs strides K D hG hL hD hok x hguard v r hr hz
        · rcases honly r hr hz with rfl | rfl
          · exact h1
          · exact h2
      exact ⟨hm, hE.stride _ (hKl.update x v hK) hm⟩
  have hval : ∀ v, l.val (Function.update (D.pt x p) (L - 1) v) =
      u.cst + l.cst - u.val (Function.update (D.pt x p) (L - 1) v) := fun v =>
    val_opposite u l (D.total cx.nm) hlen hlenl (fun c hc => hopp c (by unfold Dom.total at hc; omega)) _
  have hstep1 : ∀ v, u.val (Function.update (D.pt x p) (L - 1) (v + 1)) =
      u.val (Function.update (D.pt x p) (L - 1) v) + u.at (L - 1) := by
    intro v
    rw [Row.val_update, Row.val_update u (L - 1) _ v]; ring
  obtain ⟨e, he⟩ := bound_exists (D.vars cx.nm) (show u.at (L - 1) ≠ 0 by omega)
  have hag : Agree (D.vars cx.nm) env (D.pt x p) (L - 1) u := by
    have := row_agree cx p ok D (L - 1) u hlen hG.faithful hok x env (x (L - 1)) hN.env husable
    rwa [Function.update_eq_self] at this
  have hup : ∀ v, u.holds (Function.update (D.pt x p) (L - 1) v) ↔ v ≤ e.eval env := fun v =>
    C05_upper u (L - 1) (D.vars cx.nm) e env _ he hag hu2 (by omega) v
  have hupv : ∀ v, 0 ≤ u.val (Function.update (D.pt x p) (L - 1) v) ↔ v ≤ e.eval env := by
    intro v
    rw [← hup v]
    unfold Row.holds
    rw [hu2, if_neg (by simp)]
  have hlov : ∀ v, l.holds (Function.update (D.pt x p) (L - 1) v) ↔
      u.val (Function.update (D.pt x p) (L - 1) v) ≤ u.cst + l.cst := by
    intro v
    unfold Row.holds
    rw [hl2, if_neg (by simp), hval]
    constructor <;> intro h <;> omega
  have huniq : ∀ v, Scanned cx.nm p L D st x v → v = e.eval env := by
    intro v hv
    rw [hscan, hup, hlov] at hv
    by_contra hne
    have h1 := (hupv (v + 1)).mpr (by omega)
    rw [hstep1] at h1
    omega
  have hmod : ∀ o, modGuard cx D eqs strides L u (some l) (L - 1) = some o →
      (Allows env o ↔ ∃ v, Scanned cx.nm p L D st x v) := by
    intro o ho
    have hex : (∃ v, Scanned cx.nm p L D st x v) ↔
        ∃ v, u.holds (Function.update (D.pt x p) (L - 1) v) ∧
          l.holds (Function.update (D.pt x p) (L - 1) v) := exists_congr hscan
    have hfull : l.at (L - 1) - 1 = u.cst + l.cst → ∃ v, Scanned cx.nm p L D st x v := by
      intro hf
      refine ⟨e.eval env, ?_⟩
      rw [hscan, hup, hlov]
      refine ⟨le_refl _, ?_⟩
      have h1 : ¬ 0 ≤ u.val (Function.update (D.pt x p) (L - 1) (e.eval env + 1)) := by
        rw [hupv]; omega
      rw [hstep1] at h1
      omega
    unfold modGuard at ho
    dsimp only at ho
    by_cases hv : u.at (L - 1) = 1 ∨ u.at (L - 1) = -1
    · omega
    · rw [if_neg hv] at ho
      by_cases hf : l.at (L - 1) - 1 = u.cst + l.cst
      · rw [if_pos (by simpa using hf)] at ho
        injection ho with ho
        subst ho
        simp only [Allows, true_iff]
        exact hfull hf
      · rw [if_neg (by simpa using hf), if_pos (by omega)] at ho
        simp only [Option.isSome_some] at ho
        rw [hex]
        cases hr : cx.reduce eqs (L - 1) u (some l) (u.cst + l.cst) with
        | none =>
          rw [hr] at ho
          simp only at ho
          injection ho with ho
          subst ho
          simp only [Allows, true_iff]
          exact hE.reduceNone hf hr x hK
        | some cb =>
          obtain ⟨c, b⟩ := cb
          rw [hr] at ho
          simp only at ho
          obtain ⟨r1, r0, r2, r3, r4, r6, r5⟩ := hE.reduceSome c b hf hr
          obtain ⟨o', ho', hall⟩ := C13_modulo_pair_partial cx.nm strides L b c (L - 1) env (D.pt x p) _
            (modCtx_own cx p L ok strides D env x hN hL hD c r2 r3 r4) r1 r0
          rw [ho] at ho'
          injection ho' with ho'
          subst ho'
          rw [hall (fun q e m hq hl => r6 q e m (by rw [ho, hq]) hl x env hK hN.env), r5 x hK]
  unfold insertEquation at h
  dsimp only at h
  cases hotl : cx.otl with
  | false =>
    have husablel : ∀ c, c ≠ L - 1 → l.at c ≠ 0 → D.usable ok c = true := by
      intro c hc hz
      have hcl := Row.at_lt l c hz
      refine husable c hc (fun h0 => hz ?_)
      rw [hopp c (by unfold Dom.total at hlenl; omega), h0]; rfl
    obtain ⟨f, hf⟩ := bound_exists (D.vars cx.nm) (show l.at (L - 1) ≠ 0 by omega)
    have hagl : Agree (D.vars cx.nm) env (D.pt x p) (L - 1) l := by
      have := row_agree cx p ok D (L - 1) l hlenl hG.faithful hok x env (x (L - 1)) hN.env husablel
      rwa [Function.update_eq_self] at this
    have hlo : ∀ v, l.holds (Function.update (D.pt x p) (L - 1) v) ↔ f.eval env ≤ v := fun v =>
      C05_lower l (L - 1) (D.vars cx.nm) f env _ hf hagl hl2 (by omega) v
    rw [if_pos (by simp [hotl]), he, hf] at h
    simp only [Option.bind_eq_bind, Option.bind_some] at h
    injection h with h
    subst h
    have hboth : ∀ v, Scanned cx.nm p L D st x v ↔ f.eval env ≤ v ∧ v ≤ e.eval env := by
      intro v
      rw [hscan, hup, hlo]
      exact and_comm
    rw [hstr]
    refine ⟨asLoop_spec cx hn p L hL ok hN.okL D st x env hN.env _ _ _
      (strideStep_pos (hE.pos hotl)) hboth ?_ ?_, rfl, rfl⟩
    · intro v h1 h2
      have h3 := huniq v ((hboth v).mpr ⟨h1, h2⟩)
      have h4 := huniq (f.eval env) ((hboth _).mpr ⟨le_refl _, by omega⟩)
      omega
    · intro env1 he1
      have hag1 : Agree (D.vars cx.nm) env1 (D.pt x p) (L - 1) u := by
        have := row_agree cx p ok D (L - 1) u hlen hG.faithful hok x env1 (x (L - 1)) he1 husable
        rwa [Function.update_eq_self] at this
      have h3 : ∀ v, v ≤ e.eval env1 ↔ v ≤ e.eval env := fun v =>
        (C05_upper u (L - 1) (D.vars cx.nm) e env1 _ he hag1 hu2 (by omega) v).symm.trans (hup v)
      exact le_antisymm ((h3 _).mp (le_refl _)) ((h3 _).mpr (le_refl _))
  | true =>
  rw [if_neg (by simp [hotl])] at h
  cases ho : modGuard cx D eqs strides L u (some l) (L - 1) with
  | none => rw [ho] at h; simp at h
  | some o =>
    rw [ho] at h
    simp only [Option.bind_eq_bind, Option.bind_some] at h
    have hall := hmod o ho
    by_cases hun : o = .unsat
    · subst hun
      simp only at h
      injection h with h
      subst h
      refine ⟨⟨fun _ => ⟨fun v hv => ?_, fun _ => rfl⟩, fun h => by simp at h⟩, rfl, rfl⟩
      simp only [Allows, false_iff] at hall
      exact hall ⟨v, hv⟩
    · have hstep : s = ⟨true, (if true then
          fun body => o.wrap (assign cx (L - 1) e body) else o.wrap), none, true⟩ := by
        cases o with
        | unsat => exact absurd rfl hun
        | ok =>
          simp only [he, Option.bind_some] at h
          simpa using h.symm
        | test q =>
          simp only [he, Option.bind_some] at h
          simpa using h.symm
      rw [hstep]
      exact ⟨single_spec cx p L D st x env o hun e _ _ _ rfl huniq hall, rfl, rfl⟩

end Verif.ClastGen
