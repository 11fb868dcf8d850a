import Verif.Lemmas.ClastEqn

/-!
# C25: the generated program executes what the loop tree says
-/

namespace Verif.Props.ClastExec

open Verif.IntOps Verif.Clast Verif.Bound Verif.ClastGen Verif.Props.Arith Verif.Props.Bounds
open Verif.Props.Guards Verif.Props.Expr

/-! ## Assumptions about the loop tree -/

/-- Is the iterator of level `L` assigned by the generated code? Not if it is defined by an equality
that the options allow to be substituted (never without `-otl`). -/
def nextOk (cx : Ctx) (D : Dom) (L : Nat) (ok : Nat → Bool) : Nat → Bool :=
  Function.update ok (L - 1) (match D.definingEquality D.rows (L - 1) with
    | some u => !(cx.otl && equalAllow cx L (eqType D cx.nm.nPar u (L - 1)))
    | none => true)

/-- The recorded equalities inside; none is recorded without `-otl`. -/
def nextEqs (cx : Ctx) (D : Dom) (L : Nat) (eqs : List (Nat × Row)) : List (Nat × Row) :=
  match D.definingEquality D.rows (L - 1) with
  | some u => if cx.otl then (L - 1, u) :: eqs else eqs
  | none => eqs

/-- What is known about the iterators inside. -/
def nextK (cx : Ctx) (p : Nat → Int) (D : Dom) (L : Nat) (st : Option Stride)
    (K : (Nat → Int) → Prop) : (Nat → Int) → Prop :=
  fun x => K x ∧ D.mem x p ∧ strideOk st (L - 1) cx.nm.nPar x p

/-- Assumptions about the way the iterator of a loop is given. -/
def ScanOK (cx : Ctx) (p : Nat → Int) (L : Nat) (ok : Nat → Bool) (eqs : List (Nat × Row))
    (strides : Nat → Option Stride) (K : (Nat → Int) → Prop) (D : Dom) (st : Option Stride)
    (otl : Bool) : Prop :=
  (∀ u, D.definingEquality D.rows (L - 1) = some u → EqOK cx p L ok eqs K D st u) ∧
  (D.definingEquality D.rows (L - 1) = none →
    ∀ u l, D.definingInequalities cx.nm.nPar D.rows (L - 1) = some (u, l) →
      PairOK cx p L ok eqs strides K D st u l) ∧
  (D.definingEquality D.rows (L - 1) = none →
    D.definingInequalities cx.nm.nPar D.rows (L - 1) = none → ForOK cx p L ok K D st otl)

mutual
/-- Assumptions about a list of loops at level `L`, inside loops that make the iterators in `ok`
available, record the equalities `eqs` and the strides `strides`, and guarantee `K`. -/
inductive WfLoops (cx : Ctx) (p : Nat → Int) : Nat → (Nat → Bool) → List (Nat × Row) →
    (Nat → Option Stride) → ((Nat → Int) → Prop) → List Loop → Prop
  | nil {L ok eqs strides K} : WfLoops cx p L ok eqs strides K []
  | cons {L ok eqs strides K l ls} : WfLoop cx p L ok eqs strides K l →
      WfLoops cx p L ok eqs strides K ls → WfLoops cx p L ok eqs strides K (l :: ls)
/-- Assumptions about one loop. -/
inductive WfLoop (cx : Ctx) (p : Nat → Int) : Nat → (Nat → Bool) → List (Nat × Row) →
    (Nat → Option Stride) → ((Nat → Int) → Prop) → Loop → Prop
  /-- the root -/
  | root {ok eqs strides K D st otl block inner} : D.nIter = 0 →
      GuardOK cx p 0 ok eqs strides K D →
      WfLoops cx p 1 ok eqs strides (fun x => K x ∧ D.mem x p) inner →
      WfLoop cx p 0 ok eqs strides K (.mk D st otl block inner)
  /-- a loop over the iterator of its level -/
  | scan {L ok eqs strides K D st otl inner} : 0 < L → L = D.nIter →
      (∀ s, st = some s → s.wf (L - 1) cx.nm.nPar ∧ s.uses (L - 1) ok) →
      GuardOK cx p L ok eqs (Function.update strides (L - 1) st) K D →
      ScanOK cx p L ok eqs (Function.update strides (L - 1) st) K D st otl →
      WfLoops cx p (L + 1) (nextOk cx D L ok) (nextEqs cx D L eqs) (Function.update strides (L - 1) st)
        (nextK cx p D L st K) inner →
      WfLoop cx p L ok eqs strides K (.mk D st otl [] inner)
  /-- statements -/
  | leaf {L ok eqs strides K D otl block} : 0 < L → L = D.nIter + 1 →
      GuardOK cx p L ok eqs (Function.update strides (L - 1) none) K D →
      WfLoop cx p L ok eqs strides K (.mk D none otl block [])
end

/-! ## Invariant -/

/-- The point of a recorded equality for column `i`. -/
def eqPt (nm : Names) (i : Nat) (r : Row) (x p : Nat → Int) : Point := fun c =>
  if c < i + 1 then x c else p (c + nm.nPar - r.coef.length)

/-- A recorded equality. -/
structure EqInv (cx : Ctx) (p : Nat → Int) (ok : Nat → Bool) (K : (Nat → Int) → Prop) (i : Nat)
    (r : Row) : Prop where
  eq : r.isEq = true
  nz : r.at i ≠ 0
  len : i + 1 + cx.nm.nPar ≤ r.coef.length
  zero : ∀ c, i < c → c < r.coef.length - cx.nm.nPar → r.at c = 0
  use : ∀ c, c < i → r.at c ≠ 0 → ok c = true
  holds : ∀ x, K x → r.holds (eqPt cx.nm i r x p)

/-- What holds when the loops of level `L` are entered. -/
structure Inv (cx : Ctx) (p : Nat → Int) (L : Nat) (ok : Nat → Bool) (eqs : List (Nat × Row))
    (strides : Nat → Option Stride) (K : (Nat → Int) → Prop) : Prop where
  okL : ∀ c, ok c = true → c < L - 1
  cover : ∀ c, c < L - 1 → ok c = true ∨ (eqs.lookup c).isSome = true
  eqs : ∀ i r, eqs.lookup i = some r → i < L - 1 ∧ EqInv cx p ok K i r
  stride : ∀ i s, i < L - 1 → strides i = some s → s.uses i ok ∧
    ∀ x, K x → strideOk (some s) i cx.nm.nPar x p
  loc : Local L K

theorem Inv.known {cx : Ctx} {p : Nat → Int} {L : Nat} {ok : Nat → Bool} {eqs : List (Nat × Row)}
    {strides : Nat → Option Stride} {K : (Nat → Int) → Prop} (h : Inv cx p L ok eqs strides K)
    {env : Env} {x : Nat → Int} (he : EnvOK cx.nm ok env x p) (hK : K x) :
    Known cx p L ok strides env x :=
  ⟨he, h.okL, fun i s hi hs => ⟨(h.stride i s hi hs).2 x hK, (h.stride i s hi hs).1⟩⟩

theorem Inv.known' {cx : Ctx} {p : Nat → Int} {L : Nat} {ok : Nat → Bool} {eqs : List (Nat × Row)}
    {strides : Nat → Option Stride} {K : (Nat → Int) → Prop} (h : Inv cx p L ok eqs strides K)
    {env : Env} {x : Nat → Int} (he : EnvOK cx.nm ok env x p) (hK : K x) (st : Option Stride) :
    Known cx p L ok (Function.update strides (L - 1) st) env x :=
  ⟨he, h.okL, fun i s hi hs => by
    rw [Function.update_of_ne (by omega)] at hs
    exact ⟨(h.stride i s hi hs).2 x hK, (h.stride i s hi hs).1⟩⟩

theorem pt_congr (D : Dom) (x x' p : Nat → Int) (h : ∀ c, c < D.nIter → x c = x' c) :
    D.pt x p = D.pt x' p := by
  have hd : ∀ (ds : List DivDef) (acc : List Int),
      divVals D.nIter D.divs.length x p ds acc = divVals D.nIter D.divs.length x' p ds acc := by
    intro ds
    induction ds with
    | nil => intro acc; rfl
    | cons d ds ih =>
      intro acc
      unfold divVals
      have : dotFrom d.num 0 (fun c => if c < D.nIter then x c
          else if c < D.nIter + D.divs.length then acc.getD (c - D.nIter) 0
          else p (c - D.nIter - D.divs.length)) = dotFrom d.num 0 (fun c => if c < D.nIter then x' c
          else if c < D.nIter + D.divs.length then acc.getD (c - D.nIter) 0
          else p (c - D.nIter - D.divs.length)) := by
        congr 1
        funext c
        by_cases hc : c < D.nIter
        · rw [if_pos hc, if_pos hc, h c hc]
        · rw [if_neg hc, if_neg hc]
      rw [this]
      exact ih _
  funext c
  unfold Dom.pt
  rw [hd]
  by_cases hc : c < D.nIter
  · rw [if_pos hc, if_pos hc, h c hc]
  · rw [if_neg hc, if_neg hc]

theorem mem_congr (D : Dom) (x x' p : Nat → Int) (h : ∀ c, c < D.nIter → x c = x' c) :
    D.mem x p ↔ D.mem x' p := by
  unfold Dom.mem
  rw [pt_congr D x x' p h]

theorem strideOk_congr (st : Option Stride) (col nPar : Nat) (x x' p : Nat → Int)
    (h : ∀ c, c ≤ col → x c = x' c) : strideOk st col nPar x p ↔ strideOk st col nPar x' p := by
  cases st with
  | none => simp [strideOk]
  | some s =>
    unfold strideOk
    simp only
    apply Stride.holds_congr
    · intro k hk
      rw [if_pos (by omega), if_pos (by omega), h k hk]
    · intro q _
      rw [if_neg (by omega), if_neg (by omega)]

/-- The invariant inside the root. -/
theorem Inv.root {cx : Ctx} {p : Nat → Int} {ok : Nat → Bool} {eqs : List (Nat × Row)}
    {strides : Nat → Option Stride} {K : (Nat → Int) → Prop} (h : Inv cx p 0 ok eqs strides K)
    (D : Dom) (hD : D.nIter = 0) : Inv cx p 1 ok eqs strides (fun x => K x ∧ D.mem x p) := by
  refine ⟨fun c hc => by have := h.okL c hc; omega, fun c hc => by omega, ?_, fun i s hi => by omega, ?_⟩
  · intro i r hr
    have := (h.eqs i r hr).1
    omega
  · rintro x x' hx ⟨h1, h2⟩
    exact ⟨h.loc x x' (fun c hc => by omega) h1,
      (mem_congr D x x' p (fun c hc => by omega)).mp h2⟩

/-- The invariant inside a loop. -/
theorem Inv.scan {cx : Ctx} {p : Nat → Int} {L : Nat} {ok : Nat → Bool} {eqs : List (Nat × Row)}
    {strides : Nat → Option Stride} {K : (Nat → Int) → Prop} (h : Inv cx p L ok eqs strides K)
    (D : Dom) (hL : 0 < L) (hD : L = D.nIter) (st : Option Stride) (otl : Bool)
    (hst : ∀ s, st = some s → s.wf (L - 1) cx.nm.nPar ∧ s.uses (L - 1) ok)
    (hG : GuardOK cx p L ok eqs (Function.update strides (L - 1) st) K D)
    (hS : ScanOK cx p L ok eqs (Function.update strides (L - 1) st) K D st otl) :
    Inv cx p (L + 1) (nextOk cx D L ok) (nextEqs cx D L eqs) (Function.update strides (L - 1) st)
      (nextK cx p D L st K) := by
  have hokn : ∀ c, c < L - 1 → nextOk cx D L ok c = ok c := by
    intro c hc
    unfold nextOk
    rw [Function.update_of_ne (by omega)]
  refine ⟨?_, ?_, ?_, ?_, ?_⟩
  · intro c hc
    by_cases h1 : c = L - 1
    · omega
    · unfold nextOk at hc
      rw [Function.update_of_ne h1] at hc
      have := h.okL c hc
      omega
  · intro c hc
    by_cases h1 : c = L - 1
    · subst h1
      unfold nextOk nextEqs
      rw [Function.update_self]
      cases hd : D.definingEquality D.rows (L - 1) with
      | none => exact .inl rfl
      | some u => cases cx.otl <;> simp
    · have h2 : c < L - 1 := by omega
      rw [hokn c h2]
      rcases h.cover c h2 with h3 | h3
      · exact .inl h3
      · right
        unfold nextEqs
        split
        · split
          · rw [List.lookup_cons]
            have : (c == L - 1) = false := by simpa using h1
            rw [this]
            exact h3
          · exact h3
        · exact h3
  · intro i r hr
    have hold : eqs.lookup i = some r → i < L + 1 - 1 ∧
        EqInv cx p (nextOk cx D L ok) (nextK cx p D L st K) i r := by
      intro hr
      obtain ⟨h1, h2⟩ := h.eqs i r hr
      refine ⟨by omega, h2.eq, h2.nz, h2.len, h2.zero, ?_, fun x hx => h2.holds x hx.1⟩
      intro c hc hz
      rw [hokn c (by omega)]
      exact h2.use c hc hz
    unfold nextEqs at hr
    cases hd : D.definingEquality D.rows (L - 1) with
    | none => rw [hd] at hr; exact hold hr
    | some u =>
      rw [hd] at hr
      cases hotl : cx.otl with
      | false => rw [hotl] at hr; exact hold hr
      | true =>
      rw [hotl] at hr
      simp only [if_true, List.lookup_cons] at hr
      by_cases hi : i = L - 1
      · subst hi
        simp only [BEq.rfl] at hr
        injection hr with hr
        subst hr
        obtain ⟨hu1, hu2, hu3, hu4⟩ := definingEquality_spec D _ _ u hd
        have hlen := hG.len u hu1
        unfold Dom.total at hlen
        refine ⟨by omega, hu2, hu3, by omega, fun c h1 h2 => hu4 c (by omega) h1, ?_, ?_⟩
        · intro c hc hz
          rw [hokn c hc]
          exact (hS.1 u hd).use c hc hz
        · intro x hx
          have := hx.2.1 u hu1
          refine (Row.holds_congr u _ _ (fun c hz => ?_)).mp this
          unfold Dom.pt eqPt
          have hcl := Row.at_lt u c hz
          by_cases h1 : c < L - 1 + 1
          · rw [if_pos h1, if_pos (by omega)]
          · rw [if_neg h1, if_neg (by omega)]
            by_cases h2 : c < D.nIter + D.divs.length
            · exact absurd (hu4 c h2 (by omega)) hz
            · rw [if_neg h2]
              congr 1
              omega
      · have : (i == L - 1) = false := by simpa using hi
        rw [this] at hr
        exact hold hr
  · intro i s hi hs
    by_cases h1 : i = L - 1
    · subst h1
      rw [Function.update_self] at hs
      refine ⟨?_, fun x hx => ?_⟩
      · intro c hc j hj hz
        rw [hokn j hj]
        exact (hst s hs).2 c hc j hj hz
      · have := hx.2.2
        rwa [hs] at this
    · rw [Function.update_of_ne h1] at hs
      obtain ⟨h2, h3⟩ := h.stride i s (by omega) hs
      refine ⟨?_, fun x hx => h3 x hx.1⟩
      intro c hc j hj hz
      rw [hokn j (by omega)]
      exact h2 c hc j hj hz
  · rintro x x' hx ⟨h1, h2, h3⟩
    refine ⟨h.loc x x' (fun c hc => hx c (by omega)) h1,
      (mem_congr D x x' p (fun c hc => hx c (by omega))).mp h2,
      (strideOk_congr st (L - 1) _ x x' p (fun c hc => hx c (by omega))).mp h3⟩

/-! ## Statements -/

/-- The substitutions of a statement are the values of its iterators. -/
theorem insertBlock_exec {cx : Ctx} {p : Nat → Int} {L : Nat} {ok : Nat → Bool}
    {eqs : List (Nat × Row)}
    {strides : Nat → Option Stride} {K : (Nat → Int) → Prop} (h : Inv cx p L ok eqs strides K)
    {env : Env} {x : Nat → Int} (he : EnvOK cx.nm ok env x p) (hK : K x) (block : List Nat) :
    Exec (insertBlock cx eqs block (L - 1)) env (blockEvents cx.nm.nScat block (L - 1) x) env := by
  have hargs : ((List.range (L - 1)).filter (fun i => cx.nm.nScat ≤ i)).map x =
      (((List.range (L - 1)).filter (fun i => cx.nm.nScat ≤ i)).map (fun i =>
        match eqs.lookup i with
        | some r => (boundFromConstraint r i (eqVars cx.nm (i + 1) r.coef.length)).getD (.cst 0)
        | none => .term 1 (.name (cx.nm.at_ i)))).map (Expr.eval env) := by
    rw [List.map_map]
    apply List.map_congr_left
    intro i hi
    rw [List.mem_filter, List.mem_range] at hi
    simp only [Function.comp]
    cases hl : eqs.lookup i with
    | none =>
      rcases h.cover i hi.1 with h1 | h1
      · simp only [Expr.eval]
        rw [he.it i h1, one_mul]
      · rw [hl] at h1; simp at h1
    | some r =>
      simp only
      obtain ⟨h1, h2⟩ := h.eqs i r hl
      obtain ⟨b, hb⟩ := bound_exists (eqVars cx.nm (i + 1) r.coef.length) h2.nz
      rw [hb]
      simp only [Option.getD_some]
      refine C05_equality r i (eqVars cx.nm (i + 1) r.coef.length) b env (eqPt cx.nm i r x p) hb ?_
        h2.eq (x i) ?_
      · intro c hc hz
        unfold eqVars eqPt
        have hcl := Row.at_lt r c hz
        have hlen := h2.len
        by_cases hci : c < i + 1
        · rw [if_pos hci, if_pos hci]
          exact he.it c (h2.use c (by omega) hz)
        · rw [if_neg hci, if_neg hci]
          by_cases h3 : c < r.coef.length - cx.nm.nPar
          · exact absurd (h2.zero c (by omega) h3) hz
          · exact he.par _ (by omega)
      · have : Function.update (eqPt cx.nm i r x p) i (x i) = eqPt cx.nm i r x p := by
          rw [Function.update_eq_self_iff]
          unfold eqPt
          rw [if_pos (by omega)]
        rw [this]
        exact h2.holds x hK
  unfold insertBlock blockEvents
  rw [hargs]
  induction block with
  | nil => exact .nil _
  | cons s ss ih =>
    simp only [List.map_cons]
    exact .user ih

/-! ## The theorem -/

/-- The loops of a level, each value of the iterator. -/
def ValsSpec (cx : Ctx) (icmp : Int → Int → Int) (p : Nat → Int) (L : Nat) (inner : List Loop)
    (x : Nat → Int) (vals : List Int) (tr : List Event) : Prop :=
  ∀ ok eqs strides K, WfLoops cx p (L + 1) ok eqs strides K inner →
    Inv cx p (L + 1) ok eqs strides K → (∀ v ∈ vals, K (Function.update x (L - 1) v)) →
    ∀ stmts, insertLoops cx icmp (L + 1) eqs strides inner = some stmts →
    ∃ run : List (Int × List Event), run.map Prod.fst = vals ∧ (run.map Prod.snd).flatten = tr ∧
      ∀ vt ∈ run, ∀ env, EnvOK cx.nm ok env (Function.update x (L - 1) vt.1) p →
        ∃ env', Exec stmts env vt.2 env' ∧ Frame cx.nm (L + 1) env env'

/-- One scanning loop. -/
theorem scan_exec (cx : Ctx) (hsort : ∀ l, (cx.sort l).Perm l) (hgsort : ∀ l, (cx.gsort l).Perm l)
    (hn : NamesOK cx.nm) (icmp : Int → Int → Int) (p : Nat → Int) (L : Nat)
    (hL : 0 < L) (D : Dom) (hD : L = D.nIter) (st : Option Stride) (otl : Bool) (inner : List Loop)
    (x : Nat → Int) (vals : List Int) (tr : List Event) (hpw : vals.Pairwise (· < ·))
    (hvals : ∀ v, v ∈ vals ↔ Scanned cx.nm p L D st x v)
    (hspec : ValsSpec cx icmp p L inner x vals tr) (hnil : vals = [] → tr = [])
    (ok : Nat → Bool) (eqs : List (Nat × Row)) (strides : Nat → Option Stride)
    (K : (Nat → Int) → Prop) (hI : Inv cx p L ok eqs strides K) (hK : K x)
    (hst : ∀ s, st = some s → s.wf (L - 1) cx.nm.nPar ∧ s.uses (L - 1) ok)
    (hG : GuardOK cx p L ok eqs (Function.update strides (L - 1) st) K D)
    (hS : ScanOK cx p L ok eqs (Function.update strides (L - 1) st) K D st otl)
    (hW : WfLoops cx p (L + 1) (nextOk cx D L ok) (nextEqs cx D L eqs)
      (Function.update strides (L - 1) st) (nextK cx p D L st K) inner)
    (stmts : List Stmt)
    (h : insertLoop cx icmp L eqs strides (.mk D st otl [] inner) = some stmts) (env : Env)
    (he : EnvOK cx.nm ok env x p) :
    ∃ env', Exec stmts env tr env' ∧ Frame cx.nm L env env' := by
  unfold insertLoop at h
  dsimp only at h
  rw [if_pos hL] at h
  have hok : ok (L - 1) = false := by
    cases hc : ok (L - 1) with
    | false => rfl
    | true => have := hI.okL _ hc; omega
  cases hg : insertGuard cx D L eqs (Function.update strides (L - 1) st) L with
  | none => rw [hg] at h; simp at h
  | some g =>
    cases hs : loopStep cx icmp D L otl eqs (Function.update strides (L - 1) st) with
    | none => rw [hg, hs] at h; simp at h
    | some s =>
      rw [hg, hs] at h
      simp only [Option.bind_eq_bind, Option.bind_some] at h
      have hgx := fun body tr env' => insertGuard_exec cx hsort hgsort p L ok eqs
        (Function.update strides (L - 1) st) K D env x hG hK (hI.known' he hK st) (.inl hD)
        (fun s hL' hs => by
          rw [Function.update_self] at hs
          exact ⟨hD, hst s hs⟩) g hg body tr env'
      by_cases hguard : ∀ r ∈ D.rows, Row.involvesOpt r (guardCol D L) = false → r.holds (D.pt x p)
      · -- the guard is passed
        have hstep : StepSpec cx.nm p L D st x env s ∧ (s.go = true →
            recordEq L eqs s.rec_ = nextEqs cx D L eqs ∧
            nextOk cx D L ok = Function.update ok (L - 1) s.assigned) := by
          unfold loopStep at hs
          rw [if_pos ⟨hL, by omega⟩] at hs
          cases hd : D.definingEquality D.rows (L - 1) with
          | some u =>
            rw [hd] at hs
            simp only at hs
            obtain ⟨h1, h2⟩ := insertEquation_spec cx hn p L ok eqs
              (Function.update strides (L - 1) st) K hI.loc D st (Function.update_self _ _ _) hG hL hD x hK env
              (hI.known' he hK st) u hd (hS.1 u hd) s hs hguard
            refine ⟨h1, fun hgo => ?_⟩
            obtain ⟨h3, h4⟩ := h2 hgo
            unfold nextEqs nextOk
            rw [hd, h3, h4]
            refine ⟨?_, rfl⟩
            cases cx.otl <;> rfl
          | none =>
            rw [hd] at hs
            simp only at hs
            cases hp : D.definingInequalities cx.nm.nPar D.rows (L - 1) with
            | some ul =>
              obtain ⟨u, l⟩ := ul
              rw [hp] at hs
              simp only at hs
              obtain ⟨h1, h2, h3⟩ := insertPair_spec cx hn p L ok eqs
                (Function.update strides (L - 1) st) K hI.loc D st (Function.update_self _ _ _) hG hL hD x hK env
                (hI.known' he hK st) u l hp (hS.2.1 hd u l hp) s hs hguard
              refine ⟨h1, fun _ => ?_⟩
              unfold nextEqs nextOk
              rw [hd, h2, h3]
              exact ⟨rfl, rfl⟩
            | none =>
              rw [hp] at hs
              simp only [Function.update_self] at hs
              obtain ⟨h1, h2, h3⟩ := insertFor_spec cx hsort hn icmp p L ok eqs
                (Function.update strides (L - 1) st) K hI.loc D st otl hG (hS.2.2 hd hp) hL hD hI.okL
                x hK env he s hs hguard
              refine ⟨h1, fun _ => ?_⟩
              unfold nextEqs nextOk
              rw [hd, h2, h3]
              exact ⟨rfl, rfl⟩
        obtain ⟨hstep, hnext⟩ := hstep
        cases hgo : s.go with
        | false =>
          rw [hgo] at h
          simp only [Bool.not_false, if_true] at h
          injection h with h
          subst h
          obtain ⟨h1, h2⟩ := hstep.1 hgo
          have hv0 : vals = [] := by
            rw [List.eq_nil_iff_forall_not_mem]
            intro v hv
            exact h1 v ((hvals v).mp hv)
          refine ⟨env, ?_, Frame.refl _ _ _⟩
          rw [hgx, h2]
          refine .inl ⟨hguard, ?_⟩
          rw [exec_nil]
          exact ⟨hnil hv0, rfl⟩
        | true =>
          rw [hgo] at h
          simp only [Bool.not_true, Bool.false_eq_true, if_false] at h
          obtain ⟨hn1, hn2⟩ := hnext hgo
          rw [hn1] at h
          cases hr : insertLoops cx icmp (L + 1) (nextEqs cx D L eqs)
              (Function.update strides (L - 1) st) inner with
          | none => rw [hr] at h; simp at h
          | some rest =>
            rw [hr] at h
            simp only [Option.bind_some, insertBlock, List.map_nil, List.nil_append] at h
            injection h with h
            subst h
            obtain ⟨run, hrun1, hrun2, hrun3⟩ := hspec _ _ _ _ hW
              (hI.scan D hL hD st otl hst hG hS)
              (fun v hv => ⟨hI.loc.update x v hK, (hvals v).mp hv⟩) rest hr
            obtain ⟨env', hx, hfr⟩ := hstep.2 hgo rest run (by rw [hrun1]; exact hpw)
              (by rw [hrun1]; exact hvals) (by
                intro vt hvt env1 hfr hasg
                refine hrun3 vt hvt env1 ?_
                have he1 := hfr.envOK hn hI.okL he
                refine ⟨he1.par, fun c hc => ?_⟩
                rw [hn2] at hc
                by_cases hcl : c = L - 1
                · subst hcl
                  rw [Function.update_self] at hc ⊢
                  exact hasg hc
                · rw [Function.update_of_ne hcl] at hc ⊢
                  exact he1.it c hc)
            refine ⟨env', ?_, hfr⟩
            rw [hgx]
            rw [hrun2] at hx
            exact .inl ⟨hguard, hx⟩
      · -- the guard is not passed: there are no values
        have hv0 : vals = [] := by
          rw [List.eq_nil_iff_forall_not_mem]
          intro v hv
          apply hguard
          intro r hr hinv
          exact (row_outer cx p L ok eqs _ K D hG hok x v r hr hinv).mp (((hvals v).mp hv).1 r hr)
        refine ⟨env, ?_, Frame.refl _ _ _⟩
        obtain ⟨body, rfl⟩ : ∃ body, stmts = g body := by
          cases hgo : s.go with
          | false =>
            rw [hgo] at h
            simp only [Bool.not_false, if_true] at h
            injection h with h
            exact ⟨_, h.symm⟩
          | true =>
            rw [hgo] at h
            simp only [Bool.not_true, Bool.false_eq_true, if_false] at h
            cases hr : insertLoops cx icmp (L + 1) (recordEq L eqs s.rec_)
                (Function.update strides (L - 1) st) inner with
            | none => rw [hr] at h; simp at h
            | some rest =>
              rw [hr] at h
              simp only [Option.bind_some] at h
              injection h with h
              exact ⟨_, h.symm⟩
        rw [hgx]
        exact .inr ⟨hguard, hnil hv0, rfl⟩

/-- One loop that does not scan: the root, or statements. -/
theorem leaf_exec (cx : Ctx) (hsort : ∀ l, (cx.sort l).Perm l) (hgsort : ∀ l, (cx.gsort l).Perm l)
    (icmp : Int → Int → Int) (p : Nat → Int) (L : Nat)
    (D : Dom) (hD : ¬ (0 < L ∧ L ≤ D.nIter)) (st : Option Stride) (otl : Bool) (block : List Nat)
    (inner : List Loop) (x : Nat → Int) (tr : List Event)
    (ok : Nat → Bool) (eqs : List (Nat × Row)) (strides : Nat → Option Stride)
    (K : (Nat → Int) → Prop) (hI : Inv cx p L ok eqs strides K) (hK : K x)
    (hL : L = D.nIter + 1 ∧ st = none ∨ L = 0)
    (hG : GuardOK cx p L ok eqs (if 0 < L then Function.update strides (L - 1) st else strides) K D)
    (stmts : List Stmt)
    (h : insertLoop cx icmp L eqs strides (.mk D st otl block inner) = some stmts) (env : Env)
    (he : EnvOK cx.nm ok env x p)
    (hrest : D.mem x p → ∀ rest, insertLoops cx icmp (L + 1) eqs
      (if 0 < L then Function.update strides (L - 1) st else strides) inner = some rest →
      ∃ env', Exec rest env tr env' ∧ Frame cx.nm L env env') :
    (D.mem x p → ∃ env', Exec stmts env (blockEvents cx.nm.nScat block (L - 1) x ++ tr) env' ∧
      Frame cx.nm L env env') ∧
    (¬ D.mem x p → Exec stmts env [] env) := by
  unfold insertLoop at h
  dsimp only at h
  cases hg : insertGuard cx D L eqs (if 0 < L then Function.update strides (L - 1) st else strides) L with
  | none => rw [hg] at h; simp at h
  | some g =>
    have hs : loopStep cx icmp D L otl eqs
        (if 0 < L then Function.update strides (L - 1) st else strides) =
        some ⟨true, fun body => body, none, true⟩ := by
      unfold loopStep
      rw [if_neg hD]
    rw [hg, hs] at h
    simp only [Option.bind_eq_bind, Option.bind_some, Bool.not_true, Bool.false_eq_true, if_false,
      recordEq] at h
    cases hr : insertLoops cx icmp (L + 1) eqs
        (if 0 < L then Function.update strides (L - 1) st else strides) inner with
    | none => rw [hr] at h; simp at h
    | some rest =>
      rw [hr] at h
      simp only [Option.bind_some] at h
      injection h with h
      have heq : isEquality D L = false := by
        unfold isEquality
        simp only [Bool.and_eq_false_iff, decide_eq_false_iff_not]
        exact .inl hD
      rw [heq] at h
      simp only [Bool.false_eq_true, if_false, Nat.add_zero] at h
      subst h
      have hknown : Known cx p L ok
          (if 0 < L then Function.update strides (L - 1) st else strides) env x := by
        split
        · exact hI.known' he hK st
        · exact hI.known he hK
      have hgx := fun body tr env' => insertGuard_exec cx hsort hgsort p L ok eqs
        (if 0 < L then Function.update strides (L - 1) st else strides) K D env x hG hK hknown
        (by omega)
        (fun s hL' hs => by
          rw [if_pos hL', Function.update_self] at hs
          rcases hL with ⟨_, h2⟩ | h2
          · rw [h2] at hs; cases hs
          · omega) g hg body tr env'
      have hmem : (∀ r ∈ D.rows, Row.involvesOpt r (guardCol D L) = false → r.holds (D.pt x p)) ↔
          D.mem x p := by
        have : guardCol D L = none := by unfold guardCol; rw [if_neg hD]
        rw [this]
        unfold Dom.mem
        simp [Row.involvesOpt]
      rw [hmem] at hgx
      constructor
      · intro hm
        obtain ⟨env', hx, hfr⟩ := hrest hm rest hr
        refine ⟨env', ?_, hfr⟩
        rw [hgx]
        refine .inl ⟨hm, ?_⟩
        rw [exec_append]
        exact ⟨_, env, tr, insertBlock_exec hI he hK block, hx, rfl⟩
      · intro hm
        rw [hgx]
        exact .inr ⟨hm, rfl, rfl⟩

theorem tree_exec (cx : Ctx) (hsort : ∀ l, (cx.sort l).Perm l) (hgsort : ∀ l, (cx.gsort l).Perm l)
    (hn : NamesOK cx.nm) (icmp : Int → Int → Int) (p : Nat → Int)
    {L : Nat} {loops : List Loop} {x : Nat → Int} {tr : List Event}
    (hrun : TreeRun cx.nm p L loops x tr) :
    ∀ ok eqs strides K, WfLoops cx p L ok eqs strides K loops →
      Inv cx p L ok eqs strides K → K x → ∀ stmts,
      insertLoops cx icmp L eqs strides loops = some stmts → ∀ env, EnvOK cx.nm ok env x p →
      ∃ env', Exec stmts env tr env' ∧ Frame cx.nm L env env' := by
  refine TreeRun.rec
    (motive_1 := fun L loops x tr _ => ∀ ok eqs strides K, WfLoops cx p L ok eqs strides K loops →
      Inv cx p L ok eqs strides K → K x → ∀ stmts,
      insertLoops cx icmp L eqs strides loops = some stmts → ∀ env, EnvOK cx.nm ok env x p →
      ∃ env', Exec stmts env tr env' ∧ Frame cx.nm L env env')
    (motive_2 := fun L l x tr _ => ∀ ok eqs strides K, WfLoop cx p L ok eqs strides K l →
      Inv cx p L ok eqs strides K → K x → ∀ stmts,
      insertLoop cx icmp L eqs strides l = some stmts → ∀ env, EnvOK cx.nm ok env x p →
      ∃ env', Exec stmts env tr env' ∧ Frame cx.nm L env env')
    (motive_3 := fun L block inner x vals tr _ => block = [] →
      ValsSpec cx icmp p L inner x vals tr ∧ (vals = [] → tr = [])) ?_ ?_ ?_ ?_ ?_ ?_ ?_ hrun
  · -- no loops
    intro L x ok eqs strides K _ _ _ stmts h env _
    unfold insertLoops at h
    injection h with h
    subst h
    exact ⟨env, .nil _, Frame.refl _ _ _⟩
  · -- several loops
    intro L l ls x t1 t2 _ _ ih1 ih2 ok eqs strides K hW hI hK stmts h env he
    cases hW with
    | cons hw hws =>
      unfold insertLoops at h
      cases ha : insertLoop cx icmp L eqs strides l with
      | none => rw [ha] at h; simp at h
      | some a =>
        cases hb : insertLoops cx icmp L eqs strides ls with
        | none => rw [ha, hb] at h; simp at h
        | some b =>
          rw [ha, hb] at h
          simp only [Option.bind_eq_bind, Option.bind_some] at h
          injection h with h
          subst h
          obtain ⟨e1, hx1, hf1⟩ := ih1 ok eqs strides K hw hI hK a ha env he
          obtain ⟨e2, hx2, hf2⟩ := ih2 ok eqs strides K hws hI hK b hb e1
            (hf1.envOK hn hI.okL he)
          exact ⟨e2, (exec_append _ _ _ _ _).mpr ⟨t1, e1, t2, hx1, hx2, rfl⟩, hf1.trans hf2⟩
  · -- a scanning loop
    intro L D st otl block inner x vals tr hL hD hpw hvals _ ih ok eqs strides K hW hI hK stmts h env he
    cases hW with
    | root h0 _ _ => omega
    | leaf h0 h1 _ => omega
    | scan h0 h1 hst hG hS hWi =>
      obtain ⟨hspec, hnil⟩ := ih rfl
      exact scan_exec cx hsort hgsort hn icmp p L hL D h1 st otl inner x vals tr hpw hvals hspec
        hnil ok eqs strides K hI hK hst hG hS hWi stmts h env he
  · -- statements, or the root
    intro L D st otl block inner x tr hD hmem _ ih ok eqs strides K hW hI hK stmts h env he
    cases hW with
    | scan h0 h1 _ _ _ _ => exact absurd ⟨h0, by omega⟩ hD
    | root h0 hG hWi =>
      refine (leaf_exec cx hsort hgsort icmp p 0 D hD st otl block inner x tr ok eqs strides K hI hK
        (.inr rfl) (by simpa using hG) stmts h env he ?_).1 hmem
      intro hm rest hr
      obtain ⟨env', hx, hf⟩ := ih ok eqs strides _ hWi (hI.root D h0) ⟨hK, hm⟩ rest (by simpa using hr)
        env he
      exact ⟨env', hx, hf.mono (by omega)⟩
    | leaf h0 h1 hG =>
      refine (leaf_exec cx hsort hgsort icmp p L D hD none otl block [] x tr ok eqs strides K hI hK
        (.inl ⟨h1, rfl⟩) (by rw [if_pos h0]; exact hG) stmts h env he ?_).1 hmem
      intro hm rest hr
      unfold insertLoops at hr
      injection hr with hr
      subst hr
      rename_i hrun'
      cases hrun'
      exact ⟨env, .nil _, Frame.refl _ _ _⟩
  · -- not in the domain
    intro L D st otl block inner x hD hmem ok eqs strides K hW hI hK stmts h env he
    cases hW with
    | scan h0 h1 _ _ _ _ => exact absurd ⟨h0, by omega⟩ hD
    | root h0 hG hWi =>
      refine ⟨env, (leaf_exec cx hsort hgsort icmp p 0 D hD st otl block inner x [] ok eqs strides K hI
        hK (.inr rfl) (by simpa using hG) stmts h env he (fun hm => absurd hm hmem)).2 hmem,
        Frame.refl _ _ _⟩
    | leaf h0 h1 hG =>
      refine ⟨env, (leaf_exec cx hsort hgsort icmp p L D hD none otl block [] x [] ok eqs strides K hI
        hK (.inl ⟨h1, rfl⟩) (by rw [if_pos h0]; exact hG) stmts h env he
        (fun hm => absurd hm hmem)).2 hmem, Frame.refl _ _ _⟩
  · -- no values
    intro L block inner x _
    refine ⟨?_, fun _ => rfl⟩
    intro ok eqs strides K _ _ _ stmts _
    exact ⟨[], rfl, rfl, by simp⟩
  · -- one more value
    intro L block inner x v vs t1 t2 _ _ ih1 ih2 hb
    subst hb
    refine ⟨?_, fun h => by simp at h⟩
    intro ok eqs strides K hW hI hK stmts h
    obtain ⟨run, h1, h2, h3⟩ := (ih2 rfl).1 ok eqs strides K hW hI
      (fun v hv => hK v (by simp [hv])) stmts h
    refine ⟨(v, t1) :: run, by simp [h1], by simp [h2, blockEvents], ?_⟩
    intro vt hvt env he
    rcases List.mem_cons.mp hvt with rfl | hvt
    · exact ih1 ok eqs strides K hW hI (hK _ (by simp)) stmts h env he
    · exact h3 vt hvt env he

theorem Inv.top (cx : Ctx) (p : Nat → Int) :
    Inv cx p 0 (fun _ => false) [] (fun _ => none) (fun _ => True) :=
  ⟨fun c hc => by simp at hc, fun c hc => by omega, fun i r hr => by simp at hr,
    fun i s hi => by omega, fun _ _ _ h => h⟩

/-- C25, partial: executing the program built by `cloog_clast_create` from a loop tree executes exactly
the statement instances of the tree, in the same order and with the right arguments: an execution
exists, and every execution has this trace. The options for substituting equalities, blocks, strides,
one-time loops, existentials and modulo guards are covered, any permutation may be used for sorting.
With `-otl 0` equalities become loops. Missing from C25: what `WfLoops` excludes, where the code is wrong or relies on isl: see
`GuardOK`, `ForOK`, `EqOK`, `PairOK`. -/
theorem C25_program_executes_tree_partial (cx : Ctx) (hsort : ∀ l, (cx.sort l).Perm l)
    (hgsort : ∀ l, (cx.gsort l).Perm l) (hn : NamesOK cx.nm)
    (icmp : Int → Int → Int) (p x : Nat → Int) (loops : List Loop) (tr : List Event)
    (hW : WfLoops cx p 0 (fun _ => false) [] (fun _ => none) (fun _ => True) loops)
    (hrun : TreeRun cx.nm p 0 loops x tr) (stmts : List Stmt)
    (h : clastCreate cx icmp loops = some stmts) (env : Env)
    (henv : ∀ k, k < cx.nm.nPar → env (cx.nm.param k) = p k) :
    (∃ env', Exec stmts env tr env') ∧
      ∀ tr' env', Exec stmts env tr' env' → tr' = tr := by
  obtain ⟨env', hx, _⟩ := tree_exec cx hsort hgsort hn icmp p hrun _ _ _ _ hW (Inv.top cx p)
    trivial stmts h env ⟨henv, fun c hc => by simp at hc⟩
  exact ⟨⟨env', hx⟩, fun tr' env'' hx' => (exec_det hx hx').1⟩

/-! ## A tree that meets the assumptions -/

theorem guardOK_noDivs (cx : Ctx) (p : Nat → Int) (L : Nat) (ok : Nat → Bool) (eqs : List (Nat × Row))
    (strides : Nat → Option Stride) (K : (Nat → Int) → Prop) (D : Dom) (hd : D.divs = [])
    (len : ∀ r ∈ D.rows, r.coef.length = D.total cx.nm)
    (var : ∀ r ∈ D.rows, ∃ c ∈ List.range (D.total cx.nm), r.at c ≠ 0)
    (use : ∀ r ∈ D.rows, Row.involvesOpt r (guardCol D L) = false →
      ∀ c ∈ List.range (D.total cx.nm), r.at c ≠ 0 →
      D.usable ok c = true) : GuardOK cx p L ok eqs strides K D where
  len := len
  const := by
    intro r hr hz
    obtain ⟨c, _, hc⟩ := var r hr
    exact absurd (hz c) hc
  faithful := by unfold Dom.divsFaithful; rw [hd]; simp
  use := by
    intro r hr hi c hz
    have := Row.at_lt r c hz
    rw [len r hr] at this
    exact use r hr hi c (List.mem_range.mpr this) hz
  noPair := by rw [hd]; simp
  noUnsat := by
    intro rows' outs h
    rw [hd] at h
    simp only [List.length_nil, extraModGuards, Option.some.injEq, Prod.mk.injEq] at h
    rw [← h.2]; simp
  oneDiv := by rw [hd]; simp
  determined := by rw [hd]; simp

/-- Iterators `i`, `ii`, `iii`, ... and the parameter `N`. -/
def exN : Names := ⟨0, 1, fun k => String.ofList (List.replicate (k + 1) 'i'), fun _ => "N"⟩

theorem exN_ok : NamesOK exN where
  inj := by
    intro c c' h
    have := congrArg String.length h
    simpa [exN] using this
  par := by
    intro c k _ h
    have := congrArg String.toList h
    simp [exN, List.replicate_succ] at this

def exC : Ctx := { exCx with nm := exN }

/-- `0 <= i <= N`, outer loop. -/
def exD1 : Dom := ⟨1, [], [⟨false, [1, 0], 0⟩, ⟨false, [-1, 1], 0⟩]⟩
/-- `ii = i + 1` and `2 i <= N - 1`: the second row becomes a guard, the first a substitution. -/
def exD2 : Dom := ⟨2, [], [⟨true, [1, -1, 0], 1⟩, ⟨false, [-2, 0, 1], -1⟩]⟩
/-- The tree: root, loop over `i`, equality for `ii`, statement 7. -/
def exTree : List Loop :=
  [.mk ⟨0, [], []⟩ none false [] [.mk exD1 none false [] [.mk exD2 none false []
    [.mk ⟨2, [], []⟩ none false [7] []]]]]

example : clastCreate exC gmpCmp exTree = some [.for_ "i" (some (.red .max [.cst 0]))
    (some (.red .min [.red .sum [.term 1 (.name "N")]])) 1
    [.guard [⟨.term 1 (.name "i"),
        .red .min [.bin .fdiv (.red .sum [.term 1 (.name "N"), .cst (-1)]) 2], -1⟩]
      [.user 7 [.term 1 (.name "i"), .red .sum [.term 1 (.name "i"), .cst 1]]]]] := by
  rfl

theorem exTree_wf (p : Nat → Int) (otl : Bool) :
    WfLoops { exC with otl := otl } p 0 (fun _ => false) [] (fun _ => none) (fun _ => True) exTree := by
  cases otl
  all_goals
    refine .cons (.root rfl (guardOK_noDivs _ _ _ _ _ _ _ _ rfl (by simp) (by simp) (by simp)) ?_) .nil
    refine .cons (.scan (by omega) rfl (by simp) ?_ ?_ ?_) .nil
    · exact guardOK_noDivs _ _ _ _ _ _ _ _ rfl (by decide) (by decide) (by decide)
    · have h1 : exD1.definingEquality exD1.rows (1 - 1) = none := by decide
      have h2 : exD1.definingInequalities exC.nm.nPar exD1.rows (1 - 1) = none := by decide
      refine ⟨fun u h => ?_, fun _ u l h => ?_, fun _ _ => ?_⟩
      · rw [h1] at h; cases h
      · rw [h2] at h; cases h
      · refine ⟨by decide, by decide, ?_, ?_, by simp, by simp, by simp, by simp⟩
        · intro r hr _ _ c hc hz
          have hl := Row.at_lt r c hz
          have hlen : ∀ r ∈ exD1.rows, r.coef.length = 2 := by decide
          have := hlen r hr
          obtain rfl : c = 1 := by omega
          decide
        · intro x _ _ h r hr
          refine h r hr ?_
          revert r
          decide
    · refine .cons (.scan (by omega) rfl (by simp) ?_ ?_ ?_) .nil
      · exact guardOK_noDivs _ _ _ _ _ _ _ _ rfl (by decide) (by decide) (by decide)
      · have h1 : exD2.definingEquality exD2.rows (2 - 1) = some ⟨true, [1, -1, 0], 1⟩ := by decide
        refine ⟨fun u h => ?_, fun h => ?_, fun h => ?_⟩
        · rw [h1] at h
          injection h with h
          subst h
          refine ⟨?_, ?_, ?_, ?_, fun _ _ _ => trivial, fun _ => ⟨by simp, fun x _ => ?_⟩⟩
          · intro c hc _
            obtain rfl : c = 0 := by omega
            decide
          · intro _ h; exact absurd rfl h
          · intro _ _ _ h; exact absurd rfl h
          · intro x _ hu hrest r hr
            by_cases hz : r.at (2 - 1) = 0
            · exact hrest r hr hz
            · have : ∀ r ∈ exD2.rows, ¬ r.at (2 - 1) = 0 → r = ⟨true, [1, -1, 0], 1⟩ := by decide
              rw [this r hr hz]
              exact hu
          · refine ⟨x 0 + 1, ?_⟩
            simp [Row.holds, Row.val, dotFrom, Dom.pt, exD2]
        · rw [h1] at h; cases h
        · rw [h1] at h; cases h
      · refine .cons (.leaf (by omega) rfl ?_) .nil
        exact guardOK_noDivs _ _ _ _ _ _ _ _ rfl (by simp) (by simp) (by simp)

/-- Its instances for `N = 3`: the guard leaves `i = 0` and `i = 1`. -/
theorem exTree_run (x : Nat → Int) :
    TreeRun exN (fun _ => 3) 0 exTree x [⟨7, [0, 1]⟩, ⟨7, [1, 2]⟩] := by
  have leaf : ∀ (x : Nat → Int), TreeRun exN (fun _ => 3) 3
      [.mk ⟨2, [], []⟩ none false [7] []] x [⟨7, [x 0, x 1]⟩] := by
    intro x
    have h := LoopRun.leaf (nm := exN) (p := fun _ => 3) (L := 3) (D := ⟨2, [], []⟩) (st := none)
      (otl := false) (block := [7]) (inner := []) (x := x) (tr := []) (by simp)
      (by unfold Dom.mem; simp) .nil
    exact .cons h .nil
  have in2 : ∀ (x : Nat → Int) (v : Int), (exD2.mem (Function.update x (2 - 1) v) (fun _ => 3) ∧
      strideOk none (2 - 1) exN.nPar (Function.update x (2 - 1) v) (fun _ => 3)) ↔
      v = x 0 + 1 ∧ 2 * x 0 ≤ 2 := by
    intro x v
    simp [Dom.mem, exD2, Row.holds, Row.val, dotFrom, Dom.pt, strideOk, Function.update]
    omega
  have eqn : ∀ (x : Nat → Int), TreeRun exN (fun _ => 3) 2
      [.mk exD2 none false [] [.mk ⟨2, [], []⟩ none false [7] []]] x
      (if 2 * x 0 ≤ 2 then [⟨7, [x 0, x 0 + 1]⟩] else []) := by
    intro x
    split
    · rename_i hle
      have h := LoopRun.scan (nm := exN) (p := fun _ => 3) (L := 2) (D := exD2) (st := none)
        (otl := false) (block := []) (inner := [.mk ⟨2, [], []⟩ none false [7] []]) (x := x)
        (vals := [x 0 + 1]) (by omega) (by decide) (by simp)
        (fun v => by rw [in2]; simp [hle]) (.cons (leaf _) .nil)
      have := TreeRun.cons h (.nil)
      simpa [blockEvents, Function.update] using this
    · rename_i hle
      have h := LoopRun.scan (nm := exN) (p := fun _ => 3) (L := 2) (D := exD2) (st := none)
        (otl := false) (block := []) (inner := [.mk ⟨2, [], []⟩ none false [7] []]) (x := x)
        (vals := []) (by omega) (by decide) (by simp)
        (fun v => by rw [in2]; simp [hle]) .nil
      exact .cons h .nil
  have in1 : ∀ (x : Nat → Int) (v : Int), (exD1.mem (Function.update x (1 - 1) v) (fun _ => 3) ∧
      strideOk none (1 - 1) exN.nPar (Function.update x (1 - 1) v) (fun _ => 3)) ↔
      0 ≤ v ∧ v ≤ 3 := by
    intro x v
    simp [Dom.mem, exD1, Row.holds, Row.val, dotFrom, Dom.pt, strideOk, Function.update]
  have h := LoopRun.scan (nm := exN) (p := fun _ => 3) (L := 1) (D := exD1) (st := none)
    (otl := false) (block := []) (inner := [.mk exD2 none false [] [.mk ⟨2, [], []⟩ none false [7] []]])
    (x := x) (vals := [0, 1, 2, 3]) (by omega) (by decide) (by decide)
    (fun v => by rw [in1]; simp; omega)
    (.cons (eqn _) (.cons (eqn _) (.cons (eqn _) (.cons (eqn _) .nil))))
  have h0 := LoopRun.leaf (nm := exN) (p := fun _ => 3) (L := 0) (D := ⟨0, [], []⟩) (st := none)
      (otl := false) (block := []) (x := x) (by simp) (by unfold Dom.mem; simp) (TreeRun.cons h .nil)
  have := TreeRun.cons h0 .nil
  unfold exTree
  simpa [blockEvents, Function.update] using this

/-- Without `-otl` the equality gets a loop, and is not substituted. -/
example : clastCreate { exC with otl := false } gmpCmp exTree =
    some [.for_ "i" (some (.red .max [.cst 0])) (some (.red .min [.red .sum [.term 1 (.name "N")]])) 1
      [.guard [⟨.term 1 (.name "i"),
          .red .min [.bin .fdiv (.red .sum [.term 1 (.name "N"), .cst (-1)]) 2], -1⟩]
        [.for_ "ii" (some (.red .sum [.term 1 (.name "i"), .cst 1]))
          (some (.red .sum [.term 1 (.name "i"), .cst 1])) 1
          [.user 7 [.term 1 (.name "i"), .term 1 (.name "ii")]]]]] := by
  rfl

-- the theorem applies to it
example (env : Env) (henv : env "N" = 3) : ∀ stmts,
    clastCreate { exC with otl := false } gmpCmp exTree = some stmts →
    ∃ env', Exec stmts env [⟨7, [0, 1]⟩, ⟨7, [1, 2]⟩] env' := fun stmts h =>
  (C25_program_executes_tree_partial _ (fun _ => .refl _) (fun _ => .refl _) exN_ok gmpCmp
    (fun _ => 3) (fun _ => 0) exTree _ (exTree_wf _ false) (exTree_run _) stmts h env
    (fun _ _ => henv)).1

-- the theorem applies
example (env : Env) (henv : env "N" = 3) : ∀ stmts, clastCreate exC gmpCmp exTree = some stmts →
    ∃ env', Exec stmts env [⟨7, [0, 1]⟩, ⟨7, [1, 2]⟩] env' := fun stmts h =>
  (C25_program_executes_tree_partial exC (fun _ => .refl _) (fun _ => .refl _) exN_ok gmpCmp
    (fun _ => 3) (fun _ => 0) exTree _ (exTree_wf _ true) (exTree_run _) stmts h env
    (fun _ _ => henv)).1

/-! ## A tree with a stride and a modulo guard -/

/-- `0 <= i <= N` and `i = 2 a`, `a = floor(i/2)`. -/
def exS1 : Dom := ⟨1, [⟨[1, 0, 0], 0, 2⟩],
  [⟨false, [1, 0, 0], 0⟩, ⟨false, [-1, 0, 1], 0⟩, ⟨true, [1, -2, 0], 0⟩]⟩
/-- `0 <= ii <= i` and `i = 3 b`, `b = floor(i/3)`. -/
def exS2 : Dom := ⟨2, [⟨[1, 0, 0, 0], 0, 3⟩],
  [⟨false, [0, 1, 0, 0], 0⟩, ⟨false, [1, -1, 0, 0], 0⟩, ⟨true, [1, 0, -3, 0], 0⟩]⟩
/-- Even values of `i` that are multiples of 3, and `0 <= ii <= i`. -/
def exTreeS : List Loop :=
  [.mk ⟨0, [], []⟩ none false [] [.mk exS1 (some ⟨2, 0, 0, none⟩) false [] [.mk exS2 none false []
    [.mk ⟨2, [], []⟩ none false [7] []]]]]

example : clastCreate exC gmpCmp exTreeS = some [.for_ "i" (some (.red .max [.cst 0]))
    (some (.red .min [.red .sum [.term 1 (.name "N")]])) 2
    [.guard [⟨.bin .mod (.red .sum [.term 1 (.name "i")]) 3, .cst 0, 0⟩]
      [.for_ "ii" (some (.red .max [.cst 0])) (some (.red .min [.red .sum [.term 1 (.name "i")]])) 1
        [.user 7 [.term 1 (.name "i"), .term 1 (.name "ii")]]]]] := by
  rfl

theorem exTreeS_wf (p : Nat → Int) :
    WfLoops exC p 0 (fun _ => false) [] (fun _ => none) (fun _ => True) exTreeS := by
  refine .cons (.root rfl (guardOK_noDivs _ _ _ _ _ _ _ _ rfl (by simp) (by simp) (by simp)) ?_) .nil
  refine .cons (.scan (by omega) rfl ?_ ?_ ?_ ?_) .nil
  · intro s hs
    injection hs with hs
    subst hs
    refine ⟨trivial, ?_⟩
    intro c hc
    cases hc
  · constructor
    · decide
    · intro r hr hz
      have hv : ∀ r ∈ exS1.rows, r.at 0 ≠ 0 := by decide
      exact absurd (hz 0) (hv r hr)
    · intro d hd
      revert d
      decide
    · intro r hr hi
      have : ∀ r ∈ exS1.rows, Row.involvesOpt r (guardCol exS1 1) = true := by decide
      rw [this r hr] at hi
      cases hi
    · decide
    · intro rows' outs h
      have : extraModGuards exC exS1 1 [] (Function.update (fun _ => none) (1 - 1)
          (some ⟨2, 0, 0, none⟩)) 1 exS1.divs.length exS1.rows = some (exS1.rows, []) := rfl
      rw [this] at h
      injection h with h
      injection h with _ h
      rw [← h]; simp
    · intro r hr _ hi
      have : ∀ r ∈ exS1.rows, Row.involvesOpt r (guardCol exS1 1) = true := by decide
      rw [this r hr] at hi
      cases hi
    · intro r hr _ hi
      have : ∀ r ∈ exS1.rows, Row.involvesOpt r (guardCol exS1 1) = true := by decide
      rw [this r hr] at hi
      cases hi
  · have h1 : exS1.definingEquality exS1.rows (1 - 1) = none := by decide
    have h2 : exS1.definingInequalities exC.nm.nPar exS1.rows (1 - 1) = none := by decide
    refine ⟨fun u h => ?_, fun _ u l h => ?_, fun _ _ => ?_⟩
    · rw [h1] at h; cases h
    · rw [h2] at h; cases h
    · refine ⟨by decide, by decide, ?_, ?_, ?_, ?_, ?_, by simp⟩
      · intro r hr hq _ c hc hz
        have hl := Row.at_lt r c hz
        have hlen : ∀ r ∈ exS1.rows, r.coef.length = 3 := by decide
        have hd : ∀ r ∈ exS1.rows, r.isEq = false → r.at 1 = 0 := by decide
        have := hlen r hr
        by_cases h3 : c = 1
        · subst h3; exact absurd (hd r hr hq) hz
        · obtain rfl : c = 2 := by omega
          decide
      · intro x _ hs h r hr
        by_cases hq : r.isEq = true ∧ r.at (1 - 1) ≠ 0
        · have : ∀ r ∈ exS1.rows, r.isEq = true → r = ⟨true, [1, -2, 0], 0⟩ := by decide
          rw [this r hr hq.1]
          simp [strideOk, Stride.holds] at hs
          simp [exS1, Row.holds, Row.val, dotFrom, Dom.pt, divVals]
          omega
        · exact h r hr hq
      · intro s hs
        injection hs with hs
        subst hs
        decide
      · intro s hs _ r hr hq ha b hb
        injection hs with hs
        subst hs
        have : ∀ r ∈ exS1.rows, r.isEq = false → 0 < r.at (1 - 1) → r = ⟨false, [1, 0, 0], 0⟩ := by
          decide
        rw [this r hr hq ha] at hb
        exact .inl ⟨0, (Option.some.inj hb).symm⟩
      · intro s c hs hc
        injection hs with hs
        subst hs
        cases hc
  · refine .cons (.scan (by omega) rfl (by simp) ?_ ?_ ?_) .nil
    · have hrow : ∀ r ∈ exS2.rows, r.isEq = true → r = ⟨true, [1, 0, -3, 0], 0⟩ := by decide
      constructor
      · decide
      · intro r hr hz
        have hv : ∀ r ∈ exS2.rows, r.at 0 ≠ 0 ∨ r.at 1 ≠ 0 := by decide
        rcases hv r hr with h | h
        · exact absurd (hz 0) h
        · exact absurd (hz 1) h
      · intro d hd
        revert d
        decide
      · intro r hr hi c hz
        have hlt := Row.at_lt r c hz
        have hlen : ∀ r ∈ exS2.rows, r.coef.length = 4 := by decide
        have := hlen r hr
        have hu : ∀ r ∈ exS2.rows, Row.involvesOpt r (guardCol exS2 2) = false → ∀ c ∈ List.range 4,
            r.at c ≠ 0 → exS2.usable (nextOk exC exS1 1 (fun _ => false)) c = true := by decide
        exact hu r hr hi c (List.mem_range.mpr (by omega)) hz
      · decide
      · intro rows' outs h
        have : ∃ rs q, extraModGuards exC exS2 2 (nextEqs exC exS1 1 [])
            (Function.update (Function.update (fun _ => none) (1 - 1) (some ⟨2, 0, 0, none⟩)) (2 - 1)
              none) 2 exS2.divs.length exS2.rows = some (rs, [.test q]) := ⟨_, _, rfl⟩
        obtain ⟨rs, q, this⟩ := this
        rw [this] at h
        injection h with h
        injection h with _ h
        rw [← h]; simp
      · intro r hr hq _ k hk _ j hj hne
        have : exS2.divs.length = 1 := rfl
        omega
      · intro r hr hq _ k hk _ x _ hex
        rw [hrow r hr hq] at hex ⊢
        obtain ⟨v, hv⟩ := hex
        have hk0 : k = 0 := by
          have : exS2.divs.length = 1 := rfl
          omega
        subst hk0
        simp [exS2, Row.holds, Row.val, dotFrom, Dom.pt, divVals, Function.update] at hv ⊢
        omega
    · have h1 : exS2.definingEquality exS2.rows (2 - 1) = none := by decide
      have h2 : exS2.definingInequalities exC.nm.nPar exS2.rows (2 - 1) = none := by decide
      refine ⟨fun u h => ?_, fun _ u l h => ?_, fun _ _ => ?_⟩
      · rw [h1] at h; cases h
      · rw [h2] at h; cases h
      · refine ⟨by decide, by decide, ?_, ?_, by simp, by simp, by simp, by simp⟩
        · intro r hr hq ha c hc hz
          have hl := Row.at_lt r c hz
          have hlen : ∀ r ∈ exS2.rows, r.coef.length = 4 := by decide
          have := hlen r hr
          have hu : ∀ r ∈ exS2.rows, r.isEq = false → r.at (2 - 1) ≠ 0 → ∀ c ∈ List.range 4,
              c ≠ 2 - 1 → r.at c ≠ 0 → exS2.usable (nextOk exC exS1 1 (fun _ => false)) c = true := by
            decide
          exact hu r hr hq ha c (List.mem_range.mpr (by omega)) hc hz
        · intro x _ _ h r hr
          refine h r hr ?_
          revert r
          decide
    · refine .cons (.leaf (by omega) rfl ?_) .nil
      exact guardOK_noDivs _ _ _ _ _ _ _ _ rfl (by simp) (by simp) (by simp)

end Verif.Props.ClastExec
