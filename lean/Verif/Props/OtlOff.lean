import Verif.Props.ClastExec

/-!
# C46: iterators fixed by an equality, without `-otl`

With `-otl 0` an iterator fixed by an equality gets a loop from the value to the value, without the test
that the value is an integer.
-/

namespace Verif.Props.OtlOff

open Verif.IntOps Verif.Clast Verif.Bound Verif.ClastGen Verif.Props.ClastExec
open Verif.Props.Guards

/-- C46, partial: the loop that `-otl 0` puts around the contents executes them for exactly the values
of the iterator in the domain if and only if the equality has an integer solution. Full claim: always.
-/
theorem C46_loop_right_iff_partial (cx : Ctx) (hn : NamesOK cx.nm) (hotl : cx.otl = false)
    (p : Nat → Int) (L : Nat) (ok : Nat → Bool) (eqs : List (Nat × Row))
    (strides : Nat → Option Stride)
    (K : (Nat → Int) → Prop) (hKl : Local L K) (D : Dom) (st : Option Stride)
    (hstr : strides (L - 1) = st) (hpos : ∀ s, st = some s → 0 < s.stride)
    (hG : GuardOK cx p L ok eqs strides K D) (hL : 0 < L)
    (hD : L = D.nIter) (x : Nat → Int) (hK : K x) (env : Env)
    (hokL : ∀ c, ok c = true → c < L - 1) (henv : EnvOK cx.nm ok env x p)
    (u : Row) (hu : D.definingEquality D.rows (L - 1) = some u)
    (huse : ∀ c, c < L - 1 → u.at c ≠ 0 → ok c = true)
    (hrest : ∀ x, K x → u.holds (D.pt x p) →
      (∀ r ∈ D.rows, r.at (L - 1) = 0 → r.holds (D.pt x p)) → D.mem x p)
    (hstride : ∀ x, K x → D.mem x p → strideOk st (L - 1) cx.nm.nPar x p)
    (s : Step) (h : insertEquation cx D L eqs strides u none = some s)
    (hguard : ∀ r ∈ D.rows, Row.involvesOpt r (guardCol D L) = false → r.holds (D.pt x p)) :
    StepSpec cx.nm p L D st x env s ↔ ∃ v, u.holds (Function.update (D.pt x p) (L - 1) v) := by
  have hok : ok (L - 1) = false := by
    cases hc : ok (L - 1) with
    | false => rfl
    | true => have := hokL _ hc; omega
  obtain ⟨hscan, e, he, huniq, hsame⟩ := eqn_facts cx p L ok eqs strides K hKl D st hG hL hD x hK hok u hu
    huse hrest hstride hguard
  unfold insertEquation at h
  dsimp only at h
  rw [if_pos (by simp [hotl]), he] at h
  simp only [Option.bind_eq_bind, Option.bind_some] at h
  injection h with h
  subst h
  rw [hstr, Verif.Props.Expr.copy_eq]
  constructor
  · intro hs
    by_contra hno
    obtain ⟨env', hx, _⟩ := hs.2 rfl [.user 0 []] [] .nil (by
      intro v
      rw [hscan]
      constructor
      · intro hv; simp at hv
      · intro hv; exact absurd ⟨v, hv⟩ hno) (by simp)
    have hgen : ∀ ss tr, Exec ss env tr env' →
        ss = [.for_ (cx.nm.at_ (L - 1)) (some e) (some e) (strideStep st) [.user 0 []]] → tr ≠ [] := by
      intro ss tr hx
      cases hx with
      | for_ hf hr =>
        rintro h
        injection h with h _
        injection h with h1 h2 h3 h4 h5
        injection h2 with h2
        injection h3 with h3
        subst h1 h4 h5
        rw [h2, h3] at hf
        cases hf with
        | done hnle =>
          refine absurd ?_ hnle
          have hfr : Frame cx.nm L env (Function.update env (cx.nm.at_ (L - 1)) (e.eval env)) :=
            (Frame.refl _ _ _).update (L - 1) (le_refl _) _
          rw [hsame env _ henv (hfr.envOK hn hokL henv)]
          simp
        | step _ hb _ => cases hb; simp
      | _ => rintro h; simp at h
    exact hgen _ _ hx rfl (by simp)
  · rintro ⟨w, hw⟩
    rw [← hscan] at hw
    refine asLoop_spec cx hn p L hL ok hokL D st x env henv _ _ _ (strideStep_pos hpos) ?_ ?_ ?_
    · intro v
      constructor
      · intro hv
        rw [huniq env henv v hv]
        exact ⟨le_refl _, le_refl _⟩
      · rintro ⟨h1, h2⟩
        have : v = w := by rw [huniq env henv w hw]; omega
        rw [this]; exact hw
    · intro v h1 h2
      omega
    · intro env1 he1
      rw [← huniq env henv w hw, ← huniq env1 he1 w hw]

/-! ## The full claim is false -/

/-- `2 i = N`. -/
def exD : Dom := ⟨1, [], [⟨true, [2, -1], 0⟩]⟩
/-- The statement 7 in the domain `2 i = N`. -/
def exT : List Loop :=
  [.mk ⟨0, [], []⟩ none false [] [.mk exD none false [] [.mk ⟨1, [], []⟩ none false [7] []]]]
/-- The context of the examples for C25, with `-otl 0`. -/
def exC0 : Ctx := { exC with otl := false }

/-- `for (i=N/2;i<=N/2;i++) S7(i);` -/
def exP : List Stmt :=
  [.for_ "i" (some (.bin .div (.red .sum [.term 1 (.name "N")]) 2))
      (some (.bin .div (.red .sum [.term 1 (.name "N")]) 2)) 1 [.user 7 [.term 1 (.name "i")]]]

theorem exT_created : clastCreate exC0 gmpCmp exT = some exP := rfl

/-- With `-otl 1`: `if (N%2 == 0) S7(N/2);`. -/
example : clastCreate { exC0 with otl := true, reduce := fun _ _ r _ _ => some (r, 0) } gmpCmp exT = some
    [.guard [⟨.bin .mod (.red .sum [.term 1 (.name "N")]) 2, .cst 0, 0⟩]
      [.user 7 [.bin .div (.red .sum [.term 1 (.name "N")]) 2]]] := rfl

/-- C46 is false of the code: with `-otl 0` and `N = 3`, the statement whose domain is `2 i = N` has no
instance, but the generated program executes it with `i = 1`. -/
theorem C46_otl0_wrong_instance : ∃ stmts, clastCreate exC0 gmpCmp exT = some stmts ∧
    (∀ x : Nat → Int, ¬ exD.mem x (fun _ => 3)) ∧
    (∀ x, TreeRun exN (fun _ => 3) 0 exT x []) ∧
    ∀ env : Env, env "N" = 3 → ∃ env', Exec stmts env [⟨7, [1]⟩] env' := by
  have hno : ∀ x : Nat → Int, ¬ exD.mem x (fun _ => 3) := by
    intro x hm
    have := hm ⟨true, [2, -1], 0⟩ (by simp [exD])
    simp [Row.holds, Row.val, dotFrom, Dom.pt, exD] at this
    omega
  refine ⟨exP, exT_created, hno, fun x => ?_, fun env henv => ?_⟩
  · have h := LoopRun.scan (nm := exN) (p := fun _ => 3) (L := 1) (D := exD) (st := none)
      (otl := false) (block := []) (inner := [.mk ⟨1, [], []⟩ none false [7] []]) (x := x)
      (vals := []) (by omega) (by decide) (by simp)
      (fun v => by simp [hno]) .nil
    have h0 := LoopRun.leaf (nm := exN) (p := fun _ => 3) (L := 0) (D := ⟨0, [], []⟩) (st := none)
      (otl := false) (block := []) (x := x) (by simp) (by unfold Dom.mem; simp) (TreeRun.cons h .nil)
    exact TreeRun.cons h0 .nil
  · refine ⟨Function.update env "i" 2, ?_⟩
    have h1 : ForExec "i" (.bin .div (.red .sum [.term 1 (.name "N")]) 2) 1
        [.user 7 [.term 1 (.name "i")]] (Function.update env "i" 1) [⟨7, [1]⟩]
        (Function.update env "i" 2) := by
      have hb : Exec [.user 7 [.term 1 (.name "i")]] (Function.update env "i" 1) [⟨7, [1]⟩]
          (Function.update env "i" 1) := by
        have := Exec.user (s := 7) (args := [.term 1 (.name "i")]) (.nil (Function.update env "i" 1))
        simpa [Expr.eval] using this
      have hd : ForExec "i" (.bin .div (.red .sum [.term 1 (.name "N")]) 2) 1
          [.user 7 [.term 1 (.name "i")]] (Function.update env "i" 2) []
          (Function.update env "i" 2) := by
        refine .done ?_
        simp [Expr.eval, evalList_eq_map, henv, BinType.eval, RedType.eval]
      have := ForExec.step (it := "i") (ub := .bin .div (.red .sum [.term 1 (.name "N")]) 2) (s := 1)
        (body := [.user 7 [.term 1 (.name "i")]]) (env := Function.update env "i" 1)
        (by simp [Expr.eval, evalList_eq_map, henv, BinType.eval, RedType.eval]) hb
        (by simpa using hd)
      simpa using this
    have h2 := Exec.for_ (it := "i") (lb := .bin .div (.red .sum [.term 1 (.name "N")]) 2) (rest := [])
      (env := env) (by
        have : Expr.eval env (.bin .div (.red .sum [.term 1 (.name "N")]) 2) = 1 := by
          simp [Expr.eval, evalList_eq_map, henv, BinType.eval, RedType.eval]
        rw [this]; exact h1) (.nil _)
    simpa [exP] using h2

/-- The hypotheses of `C46_loop_right_iff_partial` are met, with a solution for `N = 4` and without one
for `N = 3`. -/
example : ∃ s, insertEquation exC0 exD 1 [] (fun _ => none) ⟨true, [2, -1], 0⟩ none = some s ∧
    ∀ N : Int, StepSpec exC0.nm (fun _ => N) 1 exD none (fun _ => 0) (fun _ => N) s ↔
      ∃ v, N = 2 * v := by
  refine ⟨_, rfl, fun N => ?_⟩
  rw [C46_loop_right_iff_partial exC0 exN_ok rfl (fun _ => N) 1 (fun _ => false) [] (fun _ => none)
    (fun _ => True) (fun _ _ _ h => h) exD none rfl (by simp)
    (guardOK_noDivs _ _ _ _ _ _ _ _ rfl (by decide) (by decide) (by decide)) (by omega) rfl
    (fun _ => 0) trivial (fun _ => N) (by simp) ⟨fun _ _ => rfl, fun _ h => by simp at h⟩
    ⟨true, [2, -1], 0⟩ (by decide) (by intro c hc; omega) (by
      intro x _ hu _ r hr
      have : r = ⟨true, [2, -1], 0⟩ := by simpa [exD] using hr
      rw [this]; exact hu) (fun _ _ _ => trivial) _ rfl (by
      intro r hr hi
      have : r = ⟨true, [2, -1], 0⟩ := by simpa [exD] using hr
      rw [this] at hi
      exact absurd hi (by decide))]
  refine exists_congr (fun v => ?_)
  simp [Row.holds, Row.val, dotFrom, Dom.pt, exD]
  omega

end Verif.Props.OtlOff
