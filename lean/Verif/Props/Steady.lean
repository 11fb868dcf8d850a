import Verif.Lemmas.Steady
import Verif.Props.Parallel
import Verif.Props.ClastExec

/-!
# C80: the number of iterations of a loop is known when it starts
-/

namespace Verif.Props.Steady
open Verif.IntOps Verif.Clast Verif.ClastGen Verif.ClastNames Verif.Steady
open Verif.PPrint Verif.CText Verif.PText Verif.PStmt Verif.PGlue Verif.CParse Verif.Bound
open Verif.Props.PPrint Verif.Props.Parallel Verif.Props.PText

/-! ## Specification -/

/-- A statement somewhere in a program. -/
inductive In (s : Stmt) : List Stmt → Prop
  | here {ss} : In s (s :: ss)
  | next {a ss} : In s ss → In s (a :: ss)
  | block {b ss} : In s b → In s (.block b :: ss)
  | guard {q b ss} : In s b → In s (.guard q b :: ss)
  | loop {it lb ub k b ss} : In s b → In s (.for_ it lb ub k b :: ss)

/-- How many of the values `a`, `a + s`, `a + 2 s`, ... are at most `u`. -/
def count (a u s : Int) : Nat := if a ≤ u then ((u - a) / s + 1).toNat else 0

/-- The body, run `n` times with the iterator at `a`, `a + s`, ... -/
inductive Rounds (it : String) (s : Int) (b : List Stmt) : Nat → Int → Env → List Event → Env → Prop
  | done {a env} : env it = a → Rounds it s b 0 a env [] env
  | round {n a env t1 env1 t2 env2} : env it = a → Exec b env t1 env1 → env1 it = a →
      Rounds it s b n (a + s) (Function.update env1 it (a + s)) t2 env2 → Rounds it s b (n + 1) a env (t1 ++ t2) env2

theorem count_zero {a u s : Int} (h : ¬ a ≤ u) : count a u s = 0 := by rw [count, if_neg h]

theorem count_succ {a u s : Int} (hs : 0 < s) (h : a ≤ u) : count a u s = count (a + s) u s + 1 := by
  rw [count, if_pos h, count]
  have h1 : u - a = (u - (a + s)) + 1 * s := by omega
  by_cases h2 : a + s ≤ u
  · rw [if_pos h2, h1, Int.add_mul_ediv_right _ _ (by omega)]
    have := Int.ediv_nonneg (a := u - (a + s)) (b := s) (by omega) (by omega)
    omega
  · rw [if_neg h2, Int.ediv_eq_zero_of_lt (by omega) (by omega)]
    rfl

/-! ## Loops -/

theorem in_steady {lo : Bool} : ∀ {s ss}, In s ss → steadys lo ss = true → steady lo s = true
  | _, _, .here, h => by simp only [steadys, Bool.and_eq_true] at h; exact h.1
  | _, _, .next hi, h => by simp only [steadys, Bool.and_eq_true] at h; exact in_steady hi h.2
  | _, _, .block hi, h => by simp only [steadys, steady, Bool.and_eq_true] at h; exact in_steady hi h.1
  | _, _, .guard hi, h => by simp only [steadys, steady, Bool.and_eq_true] at h; exact in_steady hi h.1
  | _, _, .loop hi, h => by simp only [steadys, steady, Bool.and_eq_true] at h; exact in_steady hi h.1.2

/-- What is to be shown of a loop: its body keeps the iterator and the last value, which does not depend on the
iterator. -/
def Fixed (it : String) (ub : Option Expr) (b : List Stmt) : Prop :=
  (∀ env t env', Exec b env t env' → env' it = env it ∧ ∀ u, ub = some u → u.eval env' = u.eval env) ∧
  ∀ u, ub = some u → ∀ env v, u.eval (Function.update env it v) = u.eval env

theorem fixed_of {lo : Bool} {it : String} {lb ub : Option Expr} {k : Int} {b : List Stmt}
    (h : steady lo (.for_ it lb ub k b) = true) :
    Fixed it ub b := by
  simp only [steady, Bool.and_eq_true, decide_eq_true_eq] at h
  refine ⟨fun env t env' hx => ⟨exec_keeps hx it h.1.1.1, fun u hu => ?_⟩, fun u hu env v => ?_⟩
  · subst hu
    exact eval_congr u (fun x hm => exec_keeps hx x (h.1.1.2 x hm).2)
  · subst hu
    exact eval_congr u (fun x hm => Function.update_of_ne (h.1.1.2 x hm).1 _ _)

theorem rounds_of {it : String} {u : Expr} {b : List Stmt} (hf : Fixed it (some u) b) {s : Int} (hs : 0 < s) :
    ∀ {env t env'}, ForExec it u s b env t env' → Rounds it s b (count (env it) (u.eval env) s) (env it) env t env'
  | _, _, _, .done h => by
    rw [count_zero h]
    exact .done rfl
  | env, _, _, .step (env1 := env1) h h1 h2 => by
    rw [count_succ hs h]
    obtain ⟨e1, e2⟩ := hf.1 _ _ _ h1
    have := rounds_of hf hs h2
    rw [Function.update_self, hf.2 u rfl, e1, e2 u rfl] at this
    exact .round rfl h1 e1 this

theorem for_of_rounds {it : String} {u : Expr} {b : List Stmt} (hf : Fixed it (some u) b) {s : Int} (hs : 0 < s) :
    ∀ {n a env t env'}, Rounds it s b n a env t env' → n = count a (u.eval env) s → ForExec it u s b env t env'
  | _, _, env, _, _, .done h, hn => by
    refine .done fun hle => ?_
    rw [← h, count_succ hs hle] at hn
    omega
  | _, a, env, _, _, .round (env1 := env1) h h1 e1 h2, hn => by
    have hle : a ≤ u.eval env := by
      by_contra hc
      rw [count_zero hc] at hn
      omega
    rw [count_succ hs hle] at hn
    have he := (hf.1 _ _ _ h1).2 u rfl
    have := for_of_rounds hf hs h2 (by rw [hf.2 u rfl, he]; omega)
    refine .step (by rw [h]; exact hle) h1 ?_
    rw [e1]
    exact this

/-! ## Theorems -/

/-- The body of a generated loop changes neither the iterator nor the last value of the loop.  (`Earlys`: the
domains have all their columns, and where a loop is made of bounds, these use iterators of outer loops, parameters and
existentials defined by them; false without this, `C80_existential`.) -/
theorem C80_fixed_partial {cx : Ctx} (hsort : ∀ l, (cx.sort l).Perm l) (hn : NamesOK cx.nm) {icmp : Int → Int → Int}
    {loops : List Loop} (hE : Earlys false cx.nm 0 loops) {ss : List Stmt} (h : clastCreate cx icmp loops = some ss)
    {it : String} {lb ub : Option Expr} {k : Int} {b : List Stmt} (hi : In (.for_ it lb ub k b) ss) : Fixed it ub b :=
  fixed_of (in_steady hi (insertLoops_steady hsort hn loops 0 [] (fun _ => none) hE h).1)

/-- So a loop runs its body as often as the values on entry say, with the iterator at each of the values, and in no
other way. -/
theorem C80_count_partial {cx : Ctx} (hsort : ∀ l, (cx.sort l).Perm l) (hn : NamesOK cx.nm) {icmp : Int → Int → Int}
    {loops : List Loop} (hE : Earlys false cx.nm 0 loops) {ss : List Stmt} (h : clastCreate cx icmp loops = some ss)
    {it : String} {lb : Option Expr} {u : Expr} {k : Int} {b : List Stmt} (hi : In (.for_ it lb (some u) k b) ss) (hk : 0 < k)
    {env : Env} {t : List Event} {env' : Env} :
    ForExec it u k b env t env' ↔ Rounds it k b (count (env it) (u.eval env) k) (env it) env t env' := by
  have hf := C80_fixed_partial hsort hn hE h hi
  exact ⟨rounds_of hf hk, fun hr => for_of_rounds hf hk hr rfl⟩

/-- The trees of C25 are of this kind. -/
theorem C80_tree_partial {cx : Ctx} (hsort : ∀ l, (cx.sort l).Perm l) (hn : NamesOK cx.nm) {icmp : Int → Int → Int}
    {p : Nat → Int} {loops : List Loop}
    (hW : Props.ClastExec.WfLoops cx p 0 (fun _ => false) [] (fun _ => none) (fun _ => True) loops) {ss : List Stmt}
    (h : clastCreate cx icmp loops = some ss) {it : String} {lb ub : Option Expr} {k : Int} {b : List Stmt}
    (hi : In (.for_ it lb ub k b) ss) : Fixed it ub b :=
  C80_fixed_partial hsort hn (wfs_early hW (fun _ h => by simp at h)) h hi

/-! ## Parallel loops -/

mutual
/-- No parallel loop contains a parallel loop with the same variable for the last value. -/
def alone : PStmt → Bool
  | .root | .ass _ _ | .user _ _ => true
  | .block b => alones b
  | .guard _ b => alones b
  | .for_ _ _ _ _ a b => (!par a || !(parSets b).contains (headVars a).2) && alones b
/-- All of them. -/
def alones : List PStmt → Bool
  | [] => true
  | p :: ps => alone p && alones ps
end

mutual
theorem safe_of : ∀ p, alone p = true → steady false (strip p) = true → safe p = true
  | .root, _, _ => rfl
  | .ass _ _, _, _ => rfl
  | .user _ _, _, _ => rfl
  | .block b, h, hs => by
    simp only [alone, strip, steady] at h hs
    rw [safe]
    exact safes_of b h hs
  | .guard q b, h, hs => by
    simp only [alone, strip, steady] at h hs
    rw [safe]
    exact safes_of b h hs
  | .for_ it lb ub s a b, h, hs => by
    simp only [alone, strip, steady, Bool.and_eq_true, decide_eq_true_eq] at h hs
    rw [safe, safes_of b h.2 hs.2, Bool.and_true]
    have h1 := h.1
    rw [Bool.or_eq_true] at h1 ⊢
    refine h1.imp id fun h1 => ?_
    rw [h1, Bool.and_true, List.all_eq_true]
    intro x hx
    have := hs.1.1.2 x hx
    simp [this.1, this.2]
theorem safes_of : ∀ ps, alones ps = true → steadys false (strips ps) = true → safes ps = true
  | [], _, _ => rfl
  | p :: ps, h, hs => by
    simp only [alones, strips, steadys, Bool.and_eq_true] at h hs
    rw [safes, safe_of p h.1 hs.1, safes_of ps h.2 hs.2]
    rfl
end

/-- C53 for generated programs: annotations of loops do not change what is executed if no parallel loop contains
another one that uses the same variables. -/
theorem C80_parallel_partial (f : Cfg) (hl : f.lang = .c) (hb : f.callable = true ∨ ∀ k, f.body k = none) (n : Nat)
    {cx : Ctx} (hsort : ∀ l, (cx.sort l).Perm l) (hn : NamesOK cx.nm) {icmp : Int → Int → Int}
    {loops : List Loop} (hE : Earlys false cx.nm 0 loops) (ps : List PStmt) (h : clastCreate cx icmp loops = some (strips ps))
    (hform : forms ps = true) (hok : okSs (nmOf f) (strips ps) = true)
    (hfree : (readsS (strips ps) ++ setsS (strips ps)).all (fun x => !boundVars.contains x) = true)
    (ha : alones ps = true) (t : List Char) (ht : stmtsC f n ps = some t) :
    ∃ p, Program (sequential t) p ∧ ∀ env tr env', Exec (strips ps) env tr env' →
      ∃ e, Run p env (tr.map (ev (nmOf f))) e ∧ (∀ x, x ∉ boundVars → e x = env' x) ∧
        ∀ tr' e', Run p env tr' e' → tr' = tr.map (ev (nmOf f)) ∧ e' = e :=
  C53_parallel_partial f hl hb n ps hform hok hfree
    (safes_of ps ha (insertLoops_steady hsort hn loops 0 [] (fun _ => none) hE h).1) t ht

/-! ## An existential defined by the iterator -/

/-- `0 <= i <= 2 e + 5` with `e = floor(i / 3)`. -/
def badD : Dom := ⟨1, [⟨[1], 0, 3⟩], [⟨false, [1, 0, 0], 0⟩, ⟨false, [-1, 2, 0], 5⟩]⟩
/-- The tree. -/
def badTree : List Loop := [.mk ⟨0, [], []⟩ none false [] [.mk badD none false [] [.mk ⟨1, [], []⟩ none false [7] []]]]
/-- The last value of its loop. -/
def badU : Expr := .red .min [.red .sum [.term 2 (.bin .fdiv (.red .sum [.term 1 (.name "i")]) 3), .cst 5]]

/-- The last value of the loop made for `badTree` changes with the iterator: the loop ends at 14, though 15 is in the
domain. -/
theorem C80_existential : ∃ lb b, clastCreate Props.ClastExec.exC gmpCmp badTree = some [.for_ "i" lb (some badU) 1 b] ∧
    ¬ Fixed "i" (some badU) b ∧ (∀ env : Env, env "i" = 14 → ¬ env "i" ≤ badU.eval env) ∧
    ∀ p, badD.mem (fun _ => 15) p := by
  refine ⟨some (.red .max [.cst 0]), [.user 7 [.term 1 (.name "i")]], rfl, fun h => ?_, ?_, ?_⟩
  · have h0 := h.2 _ rfl (fun _ => 0) 3
    revert h0
    decide +kernel
  · intro env h
    simp [badU, Expr.eval, evalList, RedType.eval, h, BinType.eval, floord]
  · intro p r hr
    simp only [badD, List.mem_cons, List.not_mem_nil, or_false] at hr
    rcases hr with rfl | rfl <;> simp [Row.holds, Row.val, dotFrom, Dom.pt, badD, divVals]

/-! ## Examples -/

theorem exTree_early : Earlys false Props.ClastExec.exN 0 Props.ClastExec.exTree :=
  wfs_early (cx := Props.ClastExec.exC) (p := fun _ => 0) (Props.ClastExec.exTree_wf _ true) (fun _ h => by simp at h)

/-- The body of the loop of the tree of C25. -/
def exB : List Stmt := [.guard [⟨.term 1 (.name "i"), .red .min [.bin .fdiv (.red .sum [.term 1 (.name "N"), .cst (-1)]) 2], -1⟩]
  [.user 7 [.term 1 (.name "i"), .red .sum [.term 1 (.name "i"), .cst 1]]]]
/-- Its last value. -/
def exU : Expr := .red .min [.red .sum [.term 1 (.name "N")]]

theorem exTree_clast : clastCreate Props.ClastExec.exC gmpCmp Props.ClastExec.exTree =
    some [.for_ "i" (some (.red .max [.cst 0])) (some exU) 1 exB] := rfl

-- The tree of C25: for `N = 3` the loop over `i` has four rounds.
example (env : Env) (t : List Event) (env' : Env) (hN : env "N" = 3) (hi : env "i" = 0) :
    ForExec "i" exU 1 exB env t env' ↔ Rounds "i" 1 exB 4 0 env t env' := by
  have h := C80_count_partial (cx := Props.ClastExec.exC) (fun _ => .refl _) Props.ClastExec.exN_ok exTree_early exTree_clast
    .here (by decide) (env := env) (t := t) (env' := env')
  have hc : count (env "i") (exU.eval env) 1 = 4 := by
    rw [hi, show exU.eval env = 3 by simp [exU, Expr.eval, evalList, RedType.eval, hN]]
    decide
  rw [hc, hi] at h
  exact h

/-- The loop of the tree of C25, as a parallel loop. -/
def exPs : List PStmt := [.for_ "i" (some (.red .max [.cst 0])) (some exU) 1 { omp := true }
  [.guard [⟨.term 1 (.name "i"), .red .min [.bin .fdiv (.red .sum [.term 1 (.name "N"), .cst (-1)]) 2], -1⟩]
    [.user 7 [(none, .term 1 (.name "i")), (none, .red .sum [.term 1 (.name "i"), .cst 1])]]]]

example : ∃ t p, stmtsC exCfg 0 exPs = some t ∧ Program (sequential t) p := by
  obtain ⟨t, ht⟩ : ∃ t, stmtsC exCfg 0 exPs = some t := Option.isSome_iff_exists.1 (by decide +kernel)
  obtain ⟨p, hp, -⟩ := C80_parallel_partial exCfg rfl (Or.inr fun _ => rfl) 0 (cx := Props.ClastExec.exC) (fun _ => .refl _)
    Props.ClastExec.exN_ok exTree_early exPs exTree_clast (by decide +kernel) (by decide +kernel) (by decide +kernel)
    (by decide +kernel) t ht
  exact ⟨t, p, ht, hp⟩

end Verif.Props.Steady
