import Verif.Props.PText
import Verif.Lemmas.ClastNames

/-!
# C53: loops printed for OpenMP, MPI and vectorisation

What a parallel loop executes if the compiler ignores the directives, with one process.
-/

namespace Verif.Props.Parallel
open Verif.CText Verif.Clast Verif.ClastGen Verif.PPrint Verif.PText Verif.PLex Verif.PGlue Verif.PStmt
open Verif.Props.PPrint Verif.Props.PText Verif.ClastNames Verif.CParse

/-! ## Lines -/

/-- The call printed before a loop that is distributed over processes. -/
def distCall : List Char := "polyrt_loop_dist(_lb_dist, _ub_dist, nprocs, my_rank, &lbp, &ubp);".toList

/-- A line for a compiler that ignores directives and a single process: preprocessor lines vanish, and
    the library distributes all iterations to the process. -/
def line (l : List Char) : List Char :=
  if (l.dropWhile (· == ' ')).head? = some '#' then []
  else if l.dropWhile (· == ' ') = distCall then "lbp=_lb_dist;ubp=_ub_dist;".toList
  else l

/-- All lines; the first argument is the line so far. -/
def linesGo : List Char → List Char → List Char
  | cur, [] => line cur
  | cur, c :: cs => if c = '\n' then line cur ++ '\n' :: linesGo [] cs else linesGo (cur ++ [c]) cs

/-- The sequential program in a text. -/
def sequential (cs : List Char) : List Char := linesGo [] cs

/-! ## Programs -/

/-- The variables used for the bounds of parallel loops. -/
def boundVars : List String := ["lbp", "ubp", "lbv", "ubv", "_lb_dist", "_ub_dist"]

mutual
/-- The statement without annotations of loops. -/
def strip : PStmt → Stmt
  | .root => .block []
  | .ass (some x) e => .ass x e
  | .ass none _ => .block []
  | .user k args => .user k (args.map (·.2))
  | .block b => .block (strips b)
  | .guard qs b => .guard qs (strips b)
  | .for_ it lb ub s _ b => .for_ it lb ub s (strips b)
/-- All of them. -/
def strips : List PStmt → List Stmt
  | [] => []
  | p :: ps => strip p :: strips ps
end

/-- The loop is printed with variables for its bounds. -/
def par (a : Attr) : Bool := a.omp || a.mpi || a.vec

/-- The variables of the bounds in the header. -/
def headVars (a : Attr) : String × String := if a.omp || a.mpi then ("lbp", "ubp") else ("lbv", "ubv")

/-- The text fits on a line. -/
def oneLine : Option String → Bool
  | some s => s.toList.all (· != '\n')
  | none => true

/-- No time measurement, and texts from users fit on the line of the directive. -/
def attrOK (a : Attr) : Bool :=
  a.timeVar.isNone && oneLine a.privateVars && oneLine a.reductionVars && oneLine a.directive

mutual
/-- The statements are those of a clast from code generation, with annotated loops. -/
def form : PStmt → Bool
  | .root => false
  | .ass x _ => x.isSome
  | .user _ args => args.all (·.1.isNone)
  | .block b => forms b
  | .guard _ b => forms b
  | .for_ _ lb ub _ a b => attrOK a && (!par a || (lb.isSome && ub.isSome)) && forms b
/-- All of them. -/
def forms : List PStmt → Bool
  | [] => true
  | p :: ps => form p && forms ps
end

mutual
/-- The bound variables that are assigned. -/
def parSet : PStmt → List String
  | .root | .ass _ _ | .user _ _ => []
  | .block b => parSets b
  | .guard _ b => parSets b
  | .for_ _ _ _ _ a b => (if a.mpi then ["_lb_dist", "_ub_dist"] else []) ++
      (if par a then [(headVars a).1, (headVars a).2] else []) ++ parSets b
/-- All of them. -/
def parSets : List PStmt → List String
  | [] => []
  | p :: ps => parSet p ++ parSets ps
end

mutual
/-- No parallel loop changes its own upper bound: the body assigns no variable of the bound, and no
    parallel loop in it uses the same variable. -/
def safe : PStmt → Bool
  | .root | .ass _ _ | .user _ _ => true
  | .block b => safes b
  | .guard _ b => safes b
  | .for_ it _ ub _ a b => (!par a || ((readsO ub).all (fun x => !(it :: setsS (strips b)).contains x) &&
      !(parSets b).contains (headVars a).2)) && safes b
/-- All of them. -/
def safes : List PStmt → Bool
  | [] => true
  | p :: ps => safe p && safes ps
end

/-! ## The program that is printed -/

/-- The assignments before a loop. -/
def asgs (a : Attr) (lb ub : Expr) : List Stmt :=
  if a.mpi then [.ass "_lb_dist" lb, .ass "_ub_dist" ub, .ass "lbp" (.name "_lb_dist"), .ass "ubp" (.name "_ub_dist")]
  else [.ass (headVars a).1 lb, .ass (headVars a).2 ub]

mutual
/-- Parallel loops with their assignments. -/
def desug : PStmt → List Stmt
  | .root => []
  | .ass (some x) e => [.ass x e]
  | .ass none _ => []
  | .user k args => [.user k (args.map (·.2))]
  | .block b => [.block (desugs b)]
  | .guard qs b => [.guard qs (desugs b)]
  | .for_ it lb ub s a b =>
    if par a then
      (match lb, ub with
        | some l, some u => asgs a l u
        | _, _ => []) ++
      [.for_ it (some (.name (headVars a).1)) (some (.name (headVars a).2)) s (desugs b)]
    else [.for_ it lb ub s (desugs b)]
/-- All of them. -/
def desugs : List PStmt → List Stmt
  | [] => []
  | p :: ps => desug p ++ desugs ps
end

/-! ## Execution -/

mutual
theorem eval_congr {env env' : Env} : ∀ e : Expr, (∀ x ∈ readsE e, env' x = env x) → e.eval env' = e.eval env
  | .name s, h => by simpa [Expr.eval, readsE] using h
  | .cst c, _ => by simp [Expr.eval]
  | .term c v, h => by rw [Expr.eval, Expr.eval, eval_congr v (by simpa [readsE] using h)]
  | .bin t l r, h => by rw [Expr.eval, Expr.eval, eval_congr l (by simpa [readsE] using h)]
  | .red t es, h => by rw [Expr.eval, Expr.eval, evals_congr es (by simpa [readsE] using h)]
theorem evals_congr {env env' : Env} : ∀ es : List Expr, (∀ x ∈ readsEs es, env' x = env x) →
    evalList env' es = evalList env es
  | [], _ => rfl
  | e :: es, h => by
    simp only [readsEs, List.mem_append] at h
    rw [evalList, evalList, eval_congr e (fun x hx => h x (Or.inl hx)), evals_congr es (fun x hx => h x (Or.inr hx))]
end

mutual
theorem exec_keeps : ∀ {ss env t env'}, Exec ss env t env' → ∀ x, x ∉ setsS ss → env' x = env x
  | _, _, _, _, .nil env, x, _ => rfl
  | _, _, _, _, .ass h1, x, h => by
    simp only [setsS, sets, List.mem_append, List.mem_singleton, not_or] at h
    rw [exec_keeps h1 x h.2, Function.update_of_ne h.1]
  | _, _, _, _, .user h1, x, h => by
    simp only [setsS, sets, List.nil_append] at h
    exact exec_keeps h1 x h
  | _, _, _, _, .block h1 h2, x, h => by
    simp only [setsS, sets, List.mem_append, not_or] at h
    rw [exec_keeps h2 x h.2, exec_keeps h1 x h.1]
  | _, _, _, _, .guardT _ h1 h2, x, h => by
    simp only [setsS, sets, List.mem_append, not_or] at h
    rw [exec_keeps h2 x h.2, exec_keeps h1 x h.1]
  | _, _, _, _, .guardF _ h1, x, h => by
    simp only [setsS, sets, List.mem_append, not_or] at h
    exact exec_keeps h1 x h.2
  | _, _, _, _, .for_ h1 h2, x, h => by
    simp only [setsS, sets, List.cons_append, List.mem_cons, List.mem_append, not_or] at h
    rw [exec_keeps h2 x h.2.2, for_keeps h1 x h.1 h.2.1, Function.update_of_ne h.1]
theorem for_keeps : ∀ {it ub s body env t env'}, ForExec it ub s body env t env' → ∀ x, x ≠ it → x ∉ setsS body →
    env' x = env x
  | _, _, _, _, _, _, _, .done _, x, _, _ => rfl
  | _, _, _, _, _, _, _, .step _ h1 h2, x, hi, h => by
    rw [for_keeps h2 x hi h, Function.update_of_ne hi, exec_keeps h1 x h]
end

/-- The statements are those of the clast, with annotations. -/
inductive Ann : List Stmt → List PStmt → Prop
  | nil : Ann [] []
  | ass {x e ss ps} : Ann ss ps → Ann (.ass x e :: ss) (.ass (some x) e :: ps)
  | user {k args ss ps} : Ann ss ps → Ann (.user k (args.map (·.2)) :: ss) (.user k args :: ps)
  | block {b b' ss ps} : Ann b b' → Ann ss ps → Ann (.block b :: ss) (.block b' :: ps)
  | guard {qs b b' ss ps} : Ann b b' → Ann ss ps → Ann (.guard qs b :: ss) (.guard qs b' :: ps)
  | for_ {it lb ub s a b b' ss ps} : b = strips b' → Ann b b' → Ann ss ps →
      Ann (.for_ it lb ub s b :: ss) (.for_ it lb ub s a b' :: ps)

mutual
theorem ann_form : ∀ (p : PStmt) {ss ps}, form p = true → Ann ss ps → Ann (strip p :: ss) (p :: ps)
  | .root, _, _, h, _ => by simp [form] at h
  | .ass (some x) e, _, _, _, ha => .ass ha
  | .ass none e, _, _, h, _ => by simp [form] at h
  | .user k args, _, _, _, ha => .user ha
  | .block b, _, _, h, ha => .block (ann_forms b (by simpa [form] using h)) ha
  | .guard qs b, _, _, h, ha => .guard (ann_forms b (by simpa [form] using h)) ha
  | .for_ it lb ub s a b, _, _, h, ha => by
    simp only [form, Bool.and_eq_true] at h
    exact .for_ rfl (ann_forms b h.2) ha
theorem ann_forms : ∀ (ps : List PStmt), forms ps = true → Ann (strips ps) ps
  | [], _ => .nil
  | p :: ps, h => by
    simp only [forms, Bool.and_eq_true] at h
    exact ann_form p h.1 (ann_forms ps h.2)
end

/-- Equal but for the variables of bounds. -/
def Agree (env env' : Env) : Prop := ∀ x, x ∉ boundVars → env' x = env x

theorem Agree.update {env env' : Env} (h : Agree env env') (x : String) (v : Int) :
    Agree (Function.update env x v) (Function.update env' x v) := by
  intro y hy
  by_cases he : y = x
  · subst he; simp
  · rw [Function.update_of_ne he, Function.update_of_ne he, h y hy]

theorem Agree.set {env env' : Env} (h : Agree env env') {x : String} (hx : x ∈ boundVars) (v : Int) :
    Agree env (Function.update env' x v) := by
  intro y hy
  rw [Function.update_of_ne (by rintro rfl; exact hy hx), h y hy]

theorem Agree.eval {env env' : Env} (h : Agree env env') {e : Expr} (he : ∀ x ∈ readsE e, x ∉ boundVars) :
    e.eval env' = e.eval env := eval_congr e (fun x hx => h x (he x hx))

/-- No variable for bounds is among the names. -/
def Free (l : List String) : Prop := ∀ x ∈ l, x ∉ boundVars

theorem Free.left {a b : List String} (h : Free (a ++ b)) : Free a := fun x hx => h x (List.mem_append_left _ hx)
theorem Free.right {a b : List String} (h : Free (a ++ b)) : Free b := fun x hx => h x (List.mem_append_right _ hx)

theorem Agree.holds {env env' : Env} (h : Agree env env') {qs : List Eqn} (hf : Free (readsQ qs)) {q : Eqn} (hq : q ∈ qs) :
    q.holds env' ↔ q.holds env := by
  have h1 : ∀ x ∈ readsE q.lhs, x ∉ boundVars := fun x hx => hf x (List.mem_flatMap.2 ⟨q, hq, List.mem_append_left _ hx⟩)
  have h2 : ∀ x ∈ readsE q.rhs, x ∉ boundVars := fun x hx => hf x (List.mem_flatMap.2 ⟨q, hq, List.mem_append_right _ hx⟩)
  unfold Eqn.holds
  rw [h.eval h1, h.eval h2]

theorem head_mem (a : Attr) : (headVars a).1 ∈ boundVars ∧ (headVars a).2 ∈ boundVars ∧ (headVars a).1 ≠ (headVars a).2 := by
  unfold headVars
  split <;> decide

/-- The assignments set the variables of the header to the bounds, and nothing else but such variables. -/
theorem asgs_exec {a : Attr} (ha : par a = true) {lb ub : Expr} {env env' : Env} (h : Agree env env')
    (hl : Free (readsE lb)) (hu : Free (readsE ub)) : ∃ e, (∀ rest t e', Exec rest e t e' → Exec (asgs a lb ub ++ rest) env' t e') ∧
      Agree env e ∧ e (headVars a).1 = lb.eval env ∧ e (headVars a).2 = ub.eval env ∧
      ∀ x, x ∉ (if a.mpi then ["_lb_dist", "_ub_dist"] else []) ++ [(headVars a).1, (headVars a).2] → e x = env' x := by
  unfold asgs
  obtain ⟨m1, m2, m3⟩ := head_mem a
  split
  · rename_i hm
    have hv : headVars a = ("lbp", "ubp") := by simp [headVars, hm]
    have a1 := h.set (x := "_lb_dist") (by decide) (lb.eval env)
    have a2 := a1.set (x := "_ub_dist") (by decide) (ub.eval env)
    have a3 := a2.set (x := "lbp") (by decide) (lb.eval env)
    have a4 := a3.set (x := "ubp") (by decide) (ub.eval env)
    refine ⟨_, ?_, a4, ?_, ?_, ?_⟩
    · intro rest t e' hx
      refine .ass ?_
      rw [h.eval hl]
      refine .ass ?_
      rw [a1.eval hu]
      refine .ass (.ass ?_)
      simpa [Expr.eval] using hx
    · simp [hv]
    · simp [hv]
    · intro x hx
      simp only [hv, List.mem_append, List.mem_cons, List.not_mem_nil, or_false, not_or] at hx
      rw [Function.update_of_ne hx.2.2, Function.update_of_ne hx.2.1, Function.update_of_ne hx.1.2, Function.update_of_ne hx.1.1]
  · have a1 := h.set m1 (lb.eval env)
    have a2 := a1.set m2 (ub.eval env)
    refine ⟨_, ?_, a2, ?_, ?_, ?_⟩
    · intro rest t e' hx
      refine .ass ?_
      rw [h.eval hl]
      refine .ass ?_
      rw [a1.eval hu]
      exact hx
    · rw [Function.update_of_ne m3, Function.update_self]
    · rw [Function.update_self]
    · intro x hx
      simp only [List.nil_append, List.mem_cons, List.not_mem_nil, or_false, not_or] at hx
      rw [Function.update_of_ne hx.2, Function.update_of_ne hx.1]

/-- The bound in the header has the value of the bound of the loop, in every iteration. -/
def Bounded (it : String) (body : List Stmt) (body' : List PStmt) (ub ub' : Expr) (env env' : Env) : Prop :=
  ub' = ub ∨ ∃ u, ub' = .name u ∧ u ∈ boundVars ∧ u ∉ parSets body' ∧ env' u = ub.eval env ∧
    ∀ x ∈ readsE ub, x ≠ it ∧ x ∉ setsS body

theorem Bounded.eval {it : String} {body : List Stmt} {body' : List PStmt} {ub ub' : Expr} {env env' : Env}
    (h : Bounded it body body' ub ub' env env') (ha : Agree env env') (hu : Free (readsE ub)) :
    ub'.eval env' = ub.eval env := by
  rcases h with rfl | ⟨u, rfl, _, _, h, _⟩
  · exact ha.eval hu
  · simpa [Expr.eval] using h

theorem Free.cons {x : String} {l : List String} (h : Free (x :: l)) : x ∉ boundVars ∧ Free l :=
  ⟨h x (by simp), fun y hy => h y (by simp [hy])⟩

theorem args_agree {env env' : Env} (h : Agree env env') : ∀ {args : List Expr}, Free (readsEs args) →
    args.map (Expr.eval env') = args.map (Expr.eval env)
  | [], _ => rfl
  | e :: es, hf => by
    simp only [readsEs] at hf
    simp only [List.map_cons]
    rw [h.eval (Free.left hf), args_agree h (Free.right hf)]

mutual
theorem par_exec : ∀ {ss env t env'}, Exec ss env t env' → ∀ {ps}, Ann ss ps → forms ps = true → safes ps = true →
    Free (readsS ss) → Free (setsS ss) → ∀ {e}, Agree env e →
    ∃ e', Exec (desugs ps) e t e' ∧ Agree env' e' ∧ ∀ x ∈ boundVars, x ∉ parSets ps → e' x = e x
  | _, _, _, _, .nil env, _, ha, _, _, _, _, e, he => by
    cases ha
    exact ⟨e, .nil e, he, fun _ _ _ => rfl⟩
  | _, _, _, _, .ass h1, _, ha, hf, hs, hr, hw, e, he => by
    cases ha with
    | ass ha =>
      simp only [forms, safes, Bool.and_eq_true] at hf hs
      simp only [readsS, reads, setsS, sets] at hr hw
      obtain ⟨e', h2, h3, h4⟩ := par_exec h1 ha hf.2 hs.2 hr.right (Free.cons hw).2 (he.update _ _)
      refine ⟨e', ?_, h3, ?_⟩
      · refine .ass ?_
        rw [he.eval hr.left]
        exact h2
      · intro x hx hn
        rw [h4 x hx (by simpa [parSets, parSet] using hn), Function.update_of_ne]
        rintro rfl
        exact (Free.cons hw).1 hx
  | _, _, _, _, .user h1, _, ha, hf, hs, hr, hw, e, he => by
    cases ha with
    | user ha =>
      simp only [forms, safes, Bool.and_eq_true] at hf hs
      simp only [readsS, reads, setsS, sets, List.nil_append] at hr hw
      obtain ⟨e', h2, h3, h4⟩ := par_exec h1 ha hf.2 hs.2 hr.right hw he
      refine ⟨e', ?_, h3, fun x hx hn => h4 x hx (by simpa [parSets, parSet] using hn)⟩
      rw [← args_agree he hr.left]
      exact .user h2
  | _, _, _, _, .block h1 h1', _, ha, hf, hs, hr, hw, e, he => by
    cases ha with
    | block hb ha =>
      simp only [forms, form, safes, safe, Bool.and_eq_true] at hf hs
      simp only [readsS, reads, setsS, sets] at hr hw
      obtain ⟨e1, h2, h3, h4⟩ := par_exec h1 hb hf.1 hs.1 hr.left hw.left he
      obtain ⟨e2, g2, g3, g4⟩ := par_exec h1' ha hf.2 hs.2 hr.right hw.right h3
      refine ⟨e2, .block h2 g2, g3, fun x hx hn => ?_⟩
      simp only [parSets, parSet, List.mem_append, not_or] at hn
      rw [g4 x hx hn.2, h4 x hx hn.1]
  | _, _, _, _, .guardT hq h1 h1', _, ha, hf, hs, hr, hw, e, he => by
    cases ha with
    | guard hb ha =>
      simp only [forms, form, safes, safe, Bool.and_eq_true] at hf hs
      simp only [readsS, reads, setsS, sets] at hr hw
      obtain ⟨e1, h2, h3, h4⟩ := par_exec h1 hb hf.1 hs.1 hr.left.right hw.left he
      obtain ⟨e2, g2, g3, g4⟩ := par_exec h1' ha hf.2 hs.2 hr.right hw.right h3
      refine ⟨e2, .guardT (fun q hm => (he.holds hr.left.left hm).2 (hq q hm)) h2 g2, g3, fun x hx hn => ?_⟩
      simp only [parSets, parSet, List.mem_append, not_or] at hn
      rw [g4 x hx hn.2, h4 x hx hn.1]
  | _, _, _, _, .guardF hq h1, _, ha, hf, hs, hr, hw, e, he => by
    cases ha with
    | guard hb ha =>
      simp only [forms, form, safes, safe, Bool.and_eq_true] at hf hs
      simp only [readsS, reads, setsS, sets] at hr hw
      obtain ⟨e2, g2, g3, g4⟩ := par_exec h1 ha hf.2 hs.2 hr.right hw.right he
      refine ⟨e2, .guardF (fun hall => hq (fun q hm => (he.holds hr.left.left hm).1 (hall q hm))) g2, g3, fun x hx hn => ?_⟩
      simp only [parSets, parSet, List.mem_append, not_or] at hn
      exact g4 x hx hn.2
  | _, _, _, _, .for_ (it := it) (lb := lb) (ub := ub) (env := env) h1 h1', _, ha, hf, hs, hr, hw, e, he => by
    cases ha with
    | @for_ _ _ _ _ a _ b' _ _ hbb hb ha =>
      simp only [forms, form, safes, safe, Bool.and_eq_true] at hf hs
      simp only [readsS, reads, readsO, setsS, sets] at hr hw
      have hwi := (Free.cons hw.left).1
      have hwb := (Free.cons hw.left).2
      by_cases hp : par a = true
      · obtain ⟨e1, h2, h3, h4, h5, h6⟩ := asgs_exec hp he hr.left.left.left hr.left.left.right
        have hsu := hs.1.1
        simp only [hp, Bool.not_true, Bool.false_or, Bool.and_eq_true, List.all_eq_true, Bool.not_eq_true',
          readsO] at hsu
        have hB : Bounded it (strips b') b' ub (.name (headVars a).2) (Function.update env it (lb.eval env))
            (Function.update e1 it (lb.eval env)) := by
          refine Or.inr ⟨_, rfl, (head_mem a).2.1, by simpa using hsu.2, ?_, ?_⟩
          · rw [Function.update_of_ne, h5]
            · refine (eval_congr ub ?_).symm
              intro x hx
              have := hsu.1 x hx
              simp only [List.contains_eq_mem, List.mem_cons, decide_eq_false_iff_not, not_or] at this
              rw [Function.update_of_ne this.1]
            · intro hh
              exact hwi (hh ▸ (head_mem a).2.1)
          · intro x hx
            have := hsu.1 x hx
            simp only [List.contains_eq_mem, List.mem_cons, decide_eq_false_iff_not, not_or] at this
            exact ⟨this.1, this.2⟩
        obtain ⟨e2, g2, g3, g4⟩ := for_exec h1 hb hf.1.2 hs.1.2 hr.left.right hwb hwi hr.left.left.right
          (h3.update _ _) (hbb ▸ hB)
        obtain ⟨e3, k2, k3, k4⟩ := par_exec h1' ha hf.2 hs.2 hr.right hw.right g3
        refine ⟨e3, ?_, k3, ?_⟩
        · simp only [desugs, desug, hp, if_true]
          rw [List.append_assoc]
          refine h2 _ _ _ (.for_ ?_ k2)
          simp only [Expr.eval, h4]
          exact g2
        · intro x hx hn
          simp only [parSets, parSet, hp, if_true, List.mem_append, not_or] at hn
          rw [k4 x hx hn.2, g4 x hx hn.1.2, Function.update_of_ne, h6 x]
          · simpa only [List.mem_append, not_or] using hn.1.1
          · rintro rfl
            exact hwi hx
      · obtain ⟨e2, g2, g3, g4⟩ := for_exec h1 hb hf.1.2 hs.1.2 hr.left.right hwb hwi hr.left.left.right
          (he.update _ _) (Or.inl rfl)
        obtain ⟨e3, k2, k3, k4⟩ := par_exec h1' ha hf.2 hs.2 hr.right hw.right g3
        refine ⟨e3, ?_, k3, ?_⟩
        · simp only [desugs, desug, hp]
          refine .for_ ?_ k2
          rw [he.eval hr.left.left.left]
          exact g2
        · intro x hx hn
          simp only [parSets, parSet, List.mem_append, not_or] at hn
          rw [k4 x hx hn.2, g4 x hx hn.1.2, Function.update_of_ne]
          rintro rfl
          exact hwi hx
theorem for_exec : ∀ {it ub s body env t env'}, ForExec it ub s body env t env' → ∀ {body' ub'}, Ann body body' →
    forms body' = true → safes body' = true → Free (readsS body) → Free (setsS body) → it ∉ boundVars →
    Free (readsE ub) → ∀ {e}, Agree env e → Bounded it body body' ub ub' env e →
    ∃ e', ForExec it ub' s (desugs body') e t e' ∧ Agree env' e' ∧ ∀ x ∈ boundVars, x ∉ parSets body' → e' x = e x
  | it, _, _, _, _, _, _, .done h, _, _, _, _, _, _, _, hi, hu, e, he, hB => by
    refine ⟨e, .done ?_, he, fun _ _ _ => rfl⟩
    rw [hB.eval he hu, he it hi]
    exact h
  | it, ub, s, body, env, _, _, .step (env1 := env1) h h1 h2, body', ub', ha, hf, hs, hr, hw, hi, hu, e, he, hB => by
    obtain ⟨e1, g2, g3, g4⟩ := par_exec h1 ha hf hs hr hw he
    have hB' : Bounded it body body' ub ub' (Function.update env1 it (env1 it + s)) (Function.update e1 it (env1 it + s)) := by
      rcases hB with hB | ⟨u, b1, b2, b3, b4, b5⟩
      · exact Or.inl hB
      · refine Or.inr ⟨u, b1, b2, b3, ?_, b5⟩
        rw [Function.update_of_ne (by rintro rfl; exact hi b2), g4 u b2 b3, b4]
        refine (eval_congr ub ?_).symm
        intro x hx
        rw [Function.update_of_ne (b5 x hx).1, exec_keeps h1 x (b5 x hx).2]
    obtain ⟨e2, k2, k3, k4⟩ := for_exec h2 ha hf hs hr hw hi hu (g3.update it _) hB'
    refine ⟨e2, ?_, k3, ?_⟩
    · refine .step ?_ g2 ?_
      · rw [hB.eval he hu, he it hi]
        exact h
      · rw [g3 it hi]
        exact k2
    · intro x hx hn
      rw [k4 x hx hn, Function.update_of_ne (by rintro rfl; exact hi hx), g4 x hx hn]
end

/-! ## The text -/

theorem linesGo_line (l : List Char) (hl : ∀ c ∈ l, c ≠ '\n') (rest : List Char) : ∀ cur,
    linesGo cur (l ++ '\n' :: rest) = line (cur ++ l) ++ '\n' :: linesGo [] rest := by
  induction l with
  | nil => intro cur; simp [linesGo]
  | cons c l ih =>
    intro cur
    rw [List.cons_append, linesGo, if_neg (hl c (by simp)), ih (fun d hd => hl d (by simp [hd]))]
    simp

/-- The text passes line by line as the other text. -/
def Pass (a b : List Char) : Prop := ∀ rest, sequential (a ++ rest) = b ++ sequential rest

theorem Pass.nil : Pass [] [] := fun _ => rfl

theorem Pass.append {a b c d : List Char} (h1 : Pass a b) (h2 : Pass c d) : Pass (a ++ c) (b ++ d) := by
  intro rest
  rw [List.append_assoc, h1, h2, List.append_assoc]

theorem Pass.line {l : List Char} (hl : ∀ c ∈ l, c ≠ '\n') : Pass (l ++ ['\n']) (line l ++ ['\n']) := by
  intro rest
  have := linesGo_line l hl rest []
  simpa [sequential] using this

/-- Characters of lines that are neither directives nor the call of the library. -/
def quiet (c : Char) : Bool := c != '\n' && c != '#' && c != '&'

theorem drop_mem {l : List Char} {c : Char} (h : c ∈ l.dropWhile (· == ' ')) : c ∈ l :=
  (List.dropWhile_sublist _).mem h

/-- Other lines stay. -/
theorem line_quiet {l : List Char} (h : l.all quiet = true) : line l = l := by
  rw [List.all_eq_true] at h
  unfold line
  rw [if_neg, if_neg]
  · intro he
    have : '&' ∈ l := drop_mem (by rw [he]; decide)
    exact absurd (h _ this) (by decide)
  · intro he
    have : '#' ∈ l := drop_mem (List.mem_of_head? he)
    exact absurd (h _ this) (by decide)

theorem Pass.quiet {l : List Char} (h : l.all quiet = true) : Pass (l ++ ['\n']) (l ++ ['\n']) := by
  have := Pass.line (l := l) (fun c hc he => by
    rw [List.all_eq_true] at h
    have := h c hc
    rw [he] at this
    exact absurd this (by decide))
  rwa [line_quiet h] at this

theorem drop_ind (n : Nat) (l : List Char) : (indC n ++ l).dropWhile (· == ' ') = l.dropWhile (· == ' ') := by
  induction n with
  | zero => rfl
  | succ n ih => simpa [indC, List.replicate_succ] using ih

/-- A directive vanishes. -/
theorem Pass.directive (n : Nat) {l : List Char} (h : ∀ c ∈ l, c ≠ '\n') :
    Pass (indC n ++ ('#' :: (l ++ ['\n']))) ['\n'] := by
  have := Pass.line (l := indC n ++ '#' :: l) (by
    intro c hc
    simp only [List.mem_append, List.mem_cons, indC] at hc
    rcases hc with hc | rfl | hc
    · rw [List.eq_of_mem_replicate hc]; decide
    · decide
    · exact h c hc)
  rw [Parallel.line, drop_ind, if_pos (by simp)] at this
  simpa using this

/-- The call of the library is two assignments. -/
theorem Pass.dist (n : Nat) : Pass (indC n ++ (distCall ++ ['\n'])) ("lbp=_lb_dist;ubp=_ub_dist;".toList ++ ['\n']) := by
  have hd : ∀ c ∈ distCall, c ≠ '\n' := by decide
  have := Pass.line (l := indC n ++ distCall) (by
    intro c hc
    rw [List.mem_append] at hc
    rcases hc with hc | hc
    · rw [List.eq_of_mem_replicate hc]; decide
    · exact hd c hc)
  have h2 : Parallel.line (indC n ++ distCall) = "lbp=_lb_dist;ubp=_ub_dist;".toList := by
    unfold Parallel.line
    rw [drop_ind, if_neg (by decide), if_pos (by decide)]
  rw [h2] at this
  simpa using this

/-- A line that starts with another character. -/
theorem Pass.start (n : Nat) {c : Char} {l : List Char} (h0 : c ≠ '#' ∧ c ≠ 'p' ∧ c ≠ ' ' ∧ c ≠ '\n')
    (h : ∀ c ∈ l, c ≠ '\n') : Pass (indC n ++ (c :: (l ++ ['\n']))) (indC n ++ (c :: (l ++ ['\n']))) := by
  have := Pass.line (l := indC n ++ c :: l) (by
    intro d hd
    simp only [List.mem_append, List.mem_cons, indC] at hd
    rcases hd with hd | rfl | hd
    · rw [List.eq_of_mem_replicate hd]; decide
    · exact h0.2.2.2
    · exact h d hd)
  have hd : (indC n ++ c :: l).dropWhile (· == ' ') = c :: l := by
    rw [drop_ind, List.dropWhile_cons_of_neg]
    simpa using h0.2.2.1
  have h2 : Parallel.line (indC n ++ c :: l) = indC n ++ c :: l := by
    unfold Parallel.line
    rw [hd, if_neg (by simpa using h0.1), if_neg]
    intro he
    have h3 : distCall = 'p' :: distCall.tail := by decide +kernel
    rw [h3] at he
    injection he with h4 _
    exact h0.2.1 h4
  rw [h2] at this
  simpa using this

/-! Characters of tokens -/

theorem word_quiet {c : Char} (h : wordChar c = true) : quiet c = true := by
  have hn : ∀ x, wordChar x = false → (c == x) = false := by
    intro x hx
    simp only [beq_eq_false_iff_ne]
    rintro rfl
    rw [hx] at h
    cases h
  simp [quiet, bne, hn '\n' (by decide), hn '#' (by decide), hn '&' (by decide)]

theorem spell_quiet {t : Tok} (ho : tokOK t = true) (ht : t ≠ .andand) : (spell t).all quiet = true := by
  cases hw : isWord t with
  | true =>
    rw [List.all_eq_true]
    exact fun c hc => word_quiet ((word_spell hw ho).2.1 c hc)
  | false => cases t <;> first | exact absurd rfl ht | (simp [isWord] at hw; done) | decide

theorem spell_nonl {t : Tok} (ho : tokOK t = true) : ∀ c ∈ spell t, c ≠ '\n' := by
  by_cases ht : t = .andand
  · subst ht; decide
  · have := spell_quiet ho ht
    rw [List.all_eq_true] at this
    rintro c hc rfl
    exact absurd (this _ hc) (by decide)

/-- White space is blanks. -/
def blank : Piece → Bool
  | .tok _ => true
  | .ws cs => cs.all (· == ' ')

theorem text_nonl : ∀ (ps : List Piece) (prev : Option Tok), sepFrom prev ps → ps.all blank = true →
    ∀ c ∈ text ps, c ≠ '\n'
  | [], _, _, _ => by simp [text]
  | .tok t :: ps, _, h, hc => by
    simp only [List.all_cons, Bool.and_eq_true] at hc
    intro c hm
    rw [text_cons, List.mem_append] at hm
    rcases hm with hm | hm
    · exact spell_nonl h.1 c hm
    · exact text_nonl ps _ h.2.2 hc.2 c hm
  | .ws [] :: ps, prev, h, hc => by
    simp only [List.all_cons, Bool.and_eq_true] at hc
    exact text_nonl ps prev h hc.2
  | .ws (c :: cs) :: ps, _, h, hc => by
    simp only [List.all_cons, Bool.and_eq_true] at hc
    obtain ⟨hc1, hc2⟩ := hc
    simp only [blank, List.all_cons, Bool.and_eq_true, beq_iff_eq, List.all_eq_true] at hc1
    intro d hm
    rw [text_cons, List.mem_append] at hm
    rcases hm with hm | hm
    · simp only [Piece.chars, List.mem_cons] at hm
      rcases hm with rfl | hm
      · rw [hc1.1]; decide
      · rw [hc1.2 d hm]; decide
    · exact text_nonl ps _ h.2 hc2 d hm

/-- No `&&` among the pieces, and no new line. -/
def calm : Piece → Bool
  | .tok t => decide (t ≠ .andand)
  | .ws cs => cs.all (· == ' ')

theorem text_quiet : ∀ (ps : List Piece) (prev : Option Tok), sepFrom prev ps → ps.all calm = true →
    (text ps).all quiet = true
  | [], _, _, _ => rfl
  | .tok t :: ps, _, h, hc => by
    simp only [List.all_cons, Bool.and_eq_true, calm, decide_eq_true_eq] at hc
    rw [text_cons, List.all_append, text_quiet ps _ h.2.2 hc.2]
    simpa [Piece.chars] using spell_quiet h.1 hc.1
  | .ws [] :: ps, prev, h, hc => by
    simp only [List.all_cons, Bool.and_eq_true] at hc
    rw [text_cons]
    exact text_quiet ps prev h hc.2
  | .ws (c :: cs) :: ps, _, h, hc => by
    simp only [List.all_cons, Bool.and_eq_true] at hc
    rw [text_cons, List.all_append, text_quiet ps _ h.2 hc.2]
    have : (Piece.chars (.ws (c :: cs))).all quiet = true := by
      have hc1 := hc.1
      rw [calm, List.all_eq_true] at hc1
      rw [List.all_eq_true]
      intro d hd
      have := hc1 d hd
      rw [beq_iff_eq] at this
      subst this
      decide
    simp [this]

mutual
theorem calm_expr : ∀ e : Expr, (printExpr e).all (fun t => decide (t ≠ .andand)) = true
  | .name s => by simp [printExpr]
  | .cst c => by rw [printExpr]; exact calm_int c
  | .term c v => by
    rw [printExpr, List.all_append, calm_parens _ (calm_expr v)]
    unfold printCoef
    split
    · rfl
    · split
      · rfl
      · rw [List.all_append, calm_int]; rfl
  | .bin .fdiv l r => by
    rw [printExpr, List.all_cons, List.all_cons, List.all_append, List.all_cons, List.all_append, calm_expr l, calm_int r]; rfl
  | .bin .cdiv l r => by
    rw [printExpr, List.all_cons, List.all_cons, List.all_append, List.all_cons, List.all_append, calm_expr l, calm_int r]; rfl
  | .bin .div l r => by
    rw [printExpr, List.all_append, calm_parens _ (calm_expr l), List.all_cons, calm_int r]; rfl
  | .bin .mod l r => by
    rw [printExpr, List.all_append, calm_parens _ (calm_expr l), List.all_cons, calm_int r]; rfl
  | .red t [] => by simp [printExpr]
  | .red .sum (e :: es) => by rw [printExpr, List.all_append, calm_expr e, calm_sum es]; rfl
  | .red .min (e :: es) => by
    rw [printExpr, List.all_append, List.all_append, calm_expr e, calm_mm es, calm_open]
    · rfl
    · simp
  | .red .max (e :: es) => by
    rw [printExpr, List.all_append, List.all_append, calm_expr e, calm_mm es, calm_open]
    · rfl
    · simp
theorem calm_sum : ∀ es : List Expr, (printSum es).all (fun t => decide (t ≠ .andand)) = true
  | [] => rfl
  | e :: es => by
    rw [printSum, List.all_append, List.all_append, calm_expr e, calm_sum es]
    split <;> rfl
theorem calm_mm : ∀ es : List Expr, (printMM es).all (fun t => decide (t ≠ .andand)) = true
  | [] => rfl
  | e :: es => by
    rw [printMM, List.all_append, List.all_append, List.all_cons, calm_expr e, calm_mm es]
    rfl
theorem calm_int (n : Int) : (printInt n).all (fun t => decide (t ≠ .andand)) = true := by
  unfold printInt
  split <;> rfl
theorem calm_parens (g : Bool) {ts : List Tok} (h : ts.all (fun t => decide (t ≠ .andand)) = true) :
    (parens g ts).all (fun t => decide (t ≠ .andand)) = true := by
  unfold parens
  split
  · rw [List.all_cons, List.all_append, h]; rfl
  · exact h
theorem calm_open (s : String) (n : Nat) :
    (List.replicate n [Tok.id s, Tok.lpar]).flatten.all (fun t => decide (t ≠ .andand)) = true := by
  simp
end

theorem sepFrom_left : ∀ (a b : List Piece) (prev : Option Tok), sepFrom prev (a ++ b) → sepFrom prev a
  | [], _, _, _ => trivial
  | .tok t :: a, b, prev, h => ⟨h.1, h.2.1, sepFrom_left a b _ h.2.2⟩
  | .ws [] :: a, b, prev, h => sepFrom_left a b prev h
  | .ws (c :: cs) :: a, b, prev, h => ⟨h.1, sepFrom_left a b none h.2⟩

/-- A line of pieces that can be followed by anything. -/
def Line (L : List Piece) : Prop := ∀ ps, sepFrom none ps → sepFrom none (L ++ nl :: ps)

theorem text_line (n : Nat) (L : List Piece) : text (ind n :: (L ++ [nl])) = indC n ++ (text L ++ ['\n']) := by
  rw [text_cons, text_append]
  rfl

theorem Line.quiet {L : List Piece} (h : Line L) (hc : L.all calm = true) (n : Nat) :
    Pass (text (ind n :: (L ++ [nl]))) (text (ind n :: (L ++ [nl]))) := by
  rw [text_line, ← List.append_assoc]
  refine Pass.quiet ?_
  rw [List.all_append, text_quiet L none (sepFrom_left L (nl :: []) none (h [] trivial)) hc]
  have : (indC n).all Parallel.quiet = true := by
    rw [List.all_eq_true]
    intro c hc
    rw [List.eq_of_mem_replicate hc]
    decide
  rw [this]
  rfl

theorem Line.start {L : List Piece} (h : Line L) (hb : L.all blank = true) (n : Nat) {c : Char} {r : List Char}
    (ht : text L = c :: r) (h0 : c ≠ '#' ∧ c ≠ 'p' ∧ c ≠ ' ' ∧ c ≠ '\n') :
    Pass (text (ind n :: (L ++ [nl]))) (text (ind n :: (L ++ [nl]))) := by
  have hn := text_nonl L none (sepFrom_left L (nl :: []) none (h [] trivial)) hb
  rw [text_line]
  rw [ht] at hn ⊢
  exact Pass.start n h0 (fun d hd => hn d (by simp [hd]))

/-- The text is, after the lines of directives are gone, the tokens of the statements. -/
def Shown (nm : Nat → String) (n : Nat) (t : List Char) (ss : List Stmt) : Prop :=
  ∃ qs, Pass t (text qs) ∧ (∀ ps, sepFrom none ps → sepFrom none (qs ++ ps)) ∧
    tokens qs = tokens (printStmts nm n ss)

theorem printStmts_append (nm : Nat → String) (n : Nat) : ∀ a b : List Stmt,
    printStmts nm n (a ++ b) = printStmts nm n a ++ printStmts nm n b
  | [], b => rfl
  | s :: a, b => by rw [List.cons_append, printStmts, printStmts, printStmts_append nm n a b]; simp

theorem Shown.append {nm : Nat → String} {n : Nat} {t u : List Char} {a b : List Stmt} (h1 : Shown nm n t a)
    (h2 : Shown nm n u b) : Shown nm n (t ++ u) (a ++ b) := by
  obtain ⟨q1, p1, s1, k1⟩ := h1
  obtain ⟨q2, p2, s2, k2⟩ := h2
  refine ⟨q1 ++ q2, ?_, ?_, ?_⟩
  · rw [text_append]; exact p1.append p2
  · intro ps h
    rw [List.append_assoc]
    exact s1 _ (s2 _ h)
  · rw [tokens_append, printStmts_append, tokens_append, k1, k2]

theorem Shown.nil {nm : Nat → String} {n : Nat} : Shown nm n [] [] :=
  ⟨[], Pass.nil, fun _ h => h, rfl⟩

theorem Line.glue {L : List Piece} (h : Line L) (n : Nat) : ∀ ps, sepFrom none ps → sepFrom none (ind n :: (L ++ [nl]) ++ ps) := by
  intro ps hp
  refine sepFrom_ind ?_
  simp only [List.append_eq, List.append_assoc]
  exact h ps hp

/-- A statement on one line. -/
theorem Shown.one {nm : Nat → String} {n : Nat} {L : List Piece} (h : Line L)
    (hp : Pass (text (ind n :: (L ++ [nl]))) (text (ind n :: (L ++ [nl])))) {s : Stmt}
    (ht : tokens L = tokens (printStmt nm n s)) : Shown nm n (text (ind n :: (L ++ [nl]))) [s] := by
  refine ⟨_, hp, h.glue n, ?_⟩
  simp only [printStmts, tokens, ind, tokens_append, nl, List.append_nil, ht]

/-- A statement with a body. -/
theorem Shown.wrap {nm : Nat → String} {n m : Nat} {L : List Piece} (h : Line L)
    (hp : Pass (text (ind n :: (L ++ [nl]))) (text (ind n :: (L ++ [nl])))) {b : List Stmt} {t : List Char}
    (hb : Shown nm m t b) {s : Stmt}
    (ht : tokens (printStmt nm n s) = tokens L ++ (tokens (printStmts nm m b) ++ [.rbrace])) :
    Shown nm n (text (ind n :: (L ++ [nl])) ++ (t ++ (indC n ++ lit "}\n"))) [s] := by
  obtain ⟨qs, p1, s1, k1⟩ := hb
  have hc : Line [.tok .rbrace] := fun ps h => sepFrom_tok rfl (sepFrom_nl h)
  have hq := hc.quiet (by decide) n
  have he : indC n ++ lit "}\n" = text (ind n :: ([.tok .rbrace] ++ [nl])) := by
    rw [text_line, lit_eq]
    rfl
  refine ⟨(ind n :: (L ++ [nl])) ++ (qs ++ (ind n :: ([.tok .rbrace] ++ [nl]))), ?_, ?_, ?_⟩
  · rw [text_append, text_append, he]
    exact hp.append (p1.append hq)
  · intro ps hps
    rw [List.append_assoc, List.append_assoc]
    exact h.glue n _ (s1 _ (hc.glue n _ hps))
  · have : tokens (printStmts nm n [s]) = tokens (printStmt nm n s) := by
      simp [printStmts, tokens, ind]
    rw [this, ht, tokens_append, tokens_append, k1]
    simp [tokens, tokens_append, ind, nl]

theorem blank_toks (ts : List Tok) : (toks ts).all blank = true := by simp [toks, blank]

theorem calm_toks {ts : List Tok} (h : ts.all (fun t => decide (t ≠ .andand)) = true) : (toks ts).all calm = true := by
  rw [toks, List.all_map]
  exact h

/-- `x=e;` on a line. -/
theorem set_shown {nm : Nat → String} {x : String} (hx : name x = true) {e : Expr} (he : okE e = true) (n : Nat) :
    Shown nm n (indC n ++ setC x (some e)) [.ass x e] := by
  have hL : Line (.tok (.id x) :: .tok .asg :: (toks (printExpr e) ++ [.tok .semi])) := by
    intro ps hps
    refine sepFrom_tok (name_ident hx) (sepFrom_word rfl rfl ?_)
    simp only [List.append_eq, List.append_assoc]
    apply G.toks (okE_glue he) (fun a ha => by cases ha; exact ⟨rfl, by simp⟩)
    intro a ha
    exact semi_tail ha hps
  have hc : (Piece.tok (.id x) :: .tok .asg :: (toks (printExpr e) ++ [.tok .semi])).all calm = true := by
    simp only [List.all_cons, List.all_append, calm_toks (calm_expr e)]
    simp [calm]
  have := Shown.one (nm := nm) (n := n) hL (hL.quiet hc n) (s := .ass x e) (by
    simp [printStmt, tokens, tokens_append, sp, nl])
  rw [text_line, text_cons, text_cons, text_append, text_toks] at this
  simpa [setC, expr_eq, Piece.chars, spell, text] using this

theorem vars_name (a : Attr) : name (headVars a).1 = true ∧ name (headVars a).2 = true := by
  unfold headVars
  split <;> decide

theorem lit_cons (c : Char) (s : String) (cs : List Char) (h : s.toList = c :: cs) : lit s = c :: cs := by
  rw [lit_eq, h]

theorem clause_nonl {w : String} (hw : ∀ c ∈ w.toList, c ≠ '\n') {o : Option String} (h : oneLine o = true) :
    ∀ c ∈ clauseC w o, c ≠ '\n' := by
  cases o with
  | none => simp [clauseC]
  | some v =>
    intro c hc
    simp only [oneLine, List.all_eq_true, bne_iff_ne] at h
    simp only [clauseC, List.mem_append, List.mem_singleton] at hc
    rcases hc with hc | hc | rfl
    · exact hw c hc
    · exact h c hc
    · decide

/-- A directive with its clauses. -/
theorem pragma_pass {a : Attr} (ha : attrOK a = true) {l : List Char} (hl : ∀ c ∈ l, c ≠ '\n') :
    Pass ('#' :: (l ++ clausesC a)) ['\n'] := by
  simp only [attrOK, Bool.and_eq_true] at ha
  have h1 := clause_nonl (w := " private(") (by decide) ha.1.1.2
  have h2 := clause_nonl (w := " reduction(") (by decide) ha.1.2
  have := Pass.directive 0 (l := l ++ (clauseC " private(" a.privateVars ++ clauseC " reduction(" a.reductionVars)) (by
    intro c hc
    simp only [List.mem_append] at hc
    rcases hc with hc | hc | hc
    · exact hl c hc
    · exact h1 c hc
    · exact h2 c hc)
  simpa [indC, clausesC] using this

/-- Lines that vanish. -/
theorem Shown.gone {nm : Nat → String} {n : Nat} {t : List Char} (h : Pass t ['\n']) : Shown nm n t [] :=
  ⟨[nl], h, fun _ h => sepFrom_nl h, rfl⟩

theorem dist_shown {nm : Nat → String} (n : Nat) : Shown nm n (indC n ++ (distCall ++ ['\n']))
    [.ass "lbp" (.name "_lb_dist"), .ass "ubp" (.name "_ub_dist")] := by
  refine ⟨toks [.id "lbp", .asg, .id "_lb_dist", .semi, .id "ubp", .asg, .id "_ub_dist", .semi] ++ [nl], ?_, ?_, ?_⟩
  · have := Pass.dist n
    have he : text (toks [.id "lbp", .asg, .id "_lb_dist", .semi, .id "ubp", .asg, .id "_ub_dist", .semi] ++ [nl]) =
        "lbp=_lb_dist;ubp=_ub_dist;".toList ++ ['\n'] := by decide
    rw [he]
    exact this
  · intro ps hps
    have hn : ∀ x : String, x ∈ boundVars → tokOK (.id x) = true := by decide
    refine sepFrom_tok (hn _ (by decide)) (sepFrom_word rfl rfl (sepFrom_opw rfl rfl (hn _ (by decide))
      (sepFrom_word rfl rfl (sepFrom_opw rfl rfl (hn _ (by decide)) (sepFrom_word rfl rfl (sepFrom_opw rfl rfl
        (hn _ (by decide)) (sepFrom_word rfl rfl (sepFrom_nl hps))))))))
  · simp [printStmts, printStmt, printExpr, tokens, tokens_append, tokens_toks, ind, sp, nl, toks]

theorem bounds_shown {nm : Nat → String} {l u : String} (hl : name l = true) (hu : name u = true) {lb ub : Expr}
    (h1 : okE lb = true) (h2 : okE ub = true) (n : Nat) :
    Shown nm n (indC n ++ boundsC n l u (some lb) (some ub)) [.ass l lb, .ass u ub] := by
  have := (set_shown (nm := nm) hl h1 n).append (set_shown (nm := nm) hu h2 n)
  rw [boundsC, ← List.append_assoc]
  exact this

theorem before_shown {nm : Nat → String} {a : Attr} (ha : attrOK a = true) (hp : par a = true) {lb ub : Expr}
    (h1 : okE lb = true) (h2 : okE ub = true) (n : Nat) :
    ∃ t, indC n ++ beforeC n (some lb) (some ub) a = t ++ indC n ∧ Shown nm n t (asgs a lb ub) := by
  have ht : a.timeVar = none := by
    simp only [attrOK, Bool.and_eq_true, Option.isNone_iff_eq_none] at ha
    exact ha.1.1.1
  have hd : ∀ c ∈ directiveC a.directive, c ≠ '\n' := by
    simp only [attrOK, Bool.and_eq_true] at ha
    have h := ha.2
    cases he : a.directive with
    | none => rw [directiveC, lit_eq]; decide
    | some d =>
      rw [he] at h
      simpa [directiveC, oneLine] using h
  have hprag : lit "#pragma " = '#' :: "pragma ".toList := lit_cons _ _ _ (by decide)
  have homp : lit "#pragma omp parallel for" = '#' :: "pragma omp parallel for".toList := lit_cons _ _ _ (by decide +kernel)
  have p1 : Shown nm n (lit "#pragma " ++ (directiveC a.directive ++ clausesC a)) [] := by
    refine Shown.gone ?_
    have := pragma_pass ha (l := "pragma ".toList ++ directiveC a.directive) (by
      intro c hc
      rw [List.mem_append] at hc
      rcases hc with hc | hc
      · exact (by decide : ∀ c ∈ "pragma ".toList, c ≠ '\n') c hc
      · exact hd c hc)
    rw [hprag]
    simpa using this
  have p2 : Shown nm n (lit "#pragma omp parallel for" ++ clausesC a) [] := by
    refine Shown.gone ?_
    have := pragma_pass ha (l := "pragma omp parallel for".toList) (by decide +kernel)
    rw [homp]
    simpa using this
  unfold beforeC
  rw [ht, timeStart]
  by_cases hm : a.mpi = true
  · have hb := bounds_shown (nm := nm) (l := "_lb_dist") (u := "_ub_dist") (by decide) (by decide) h1 h2 n
    have hdist : lit "polyrt_loop_dist(_lb_dist, _ub_dist, nprocs, my_rank, &lbp, &ubp);\n" = distCall ++ ['\n'] := by
      rw [lit_eq]; decide +kernel
    have hda := dist_shown (nm := nm) n
    have ho : Shown nm n (if a.omp then lit "#pragma omp parallel for" ++ clausesC a else []) [] := by
      split
      · exact p2
      · exact Shown.nil
    refine ⟨(indC n ++ boundsC n "_lb_dist" "_ub_dist" (some lb) (some ub)) ++ ((indC n ++ (distCall ++ ['\n'])) ++
        (if a.omp then lit "#pragma omp parallel for" ++ clausesC a else [])), ?_, ?_⟩
    · rw [hdist]
      simp [hm]
    · have := hb.append (hda.append ho)
      simpa [asgs, hm] using this
  · have hm' : a.mpi = false := by simpa using hm
    have has : asgs a lb ub = [.ass (headVars a).1 lb, .ass (headVars a).2 ub] := by simp [asgs, hm']
    have hb := bounds_shown (nm := nm) (vars_name a).1 (vars_name a).2 h1 h2 n
    rw [has]
    by_cases ho : a.omp = true
    · have hv : headVars a = ("lbp", "ubp") := by simp [headVars, ho]
      rw [hv] at hb ⊢
      by_cases hu : a.user = true
      · refine ⟨(indC n ++ boundsC n "lbp" "ubp" (some lb) (some ub)) ++ (lit "#pragma " ++ (directiveC a.directive ++ clausesC a)), ?_, ?_⟩
        · simp [ho, hu, hm']
        · simpa using hb.append p1
      · refine ⟨(indC n ++ boundsC n "lbp" "ubp" (some lb) (some ub)) ++ (lit "#pragma omp parallel for" ++ clausesC a), ?_, ?_⟩
        · simp [ho, hu, hm']
        · simpa using hb.append p2
    · have hv : a.vec = true := by simpa [par, ho, hm'] using hp
      have hh : headVars a = ("lbv", "ubv") := by simp [headVars, ho, hm']
      rw [hh] at hb ⊢
      have q1 : Shown nm n (indC n ++ lit "#pragma ivdep\n") [] := by
        have := Pass.directive n (l := "pragma ivdep".toList) (by decide)
        refine Shown.gone ?_
        rw [lit_eq]
        exact this
      have q2 : Shown nm n (indC n ++ lit "#pragma vector always\n") [] := by
        have := Pass.directive n (l := "pragma vector always".toList) (by decide +kernel)
        refine Shown.gone ?_
        rw [lit_eq]
        exact this
      refine ⟨(indC n ++ boundsC n "lbv" "ubv" (some lb) (some ub)) ++ ((indC n ++ lit "#pragma ivdep\n") ++
        (indC n ++ lit "#pragma vector always\n")), ?_, ?_⟩
      · simp [ho, hv, hm']
      · simpa using hb.append (q1.append q2)

theorem before_none {a : Attr} (ha : attrOK a = true) (hp : par a = false) (n : Nat) (lb ub : Option Expr) :
    beforeC n lb ub a = [] := by
  have ht : a.timeVar = none := by
    simp only [attrOK, Bool.and_eq_true, Option.isNone_iff_eq_none] at ha
    exact ha.1.1.1
  simp only [par, Bool.or_eq_false_iff] at hp
  simp [beforeC, ht, timeStart, hp.1.1, hp.1.2, hp.2]

/-- The header of a parallel loop is that of a loop between the variables. -/
theorem head_par {a : Attr} (hp : par a = true) (it : String) (lb ub : Expr) (s : Int) :
    headC .c it (some lb) (some ub) s a =
      headC .c it (some (.name (headVars a).1)) (some (.name (headVars a).2)) s {} := by
  have hb : ∀ p v e, boundC .c a p v e = if a.omp || a.mpi then p.toList else v.toList := by
    intro p v e
    unfold boundC
    split
    · rfl
    · rename_i h
      rw [if_pos]
      simpa [par, h] using hp
  simp only [headC, initC, testC, hb]
  unfold headVars
  split <;> simp [boundC, exprC]

theorem head_plain {a : Attr} (hp : par a = false) (it : String) (lb ub : Option Expr) (s : Int) :
    headC .c it lb ub s a = headC .c it lb ub s {} := by
  simp only [par, Bool.or_eq_false_iff] at hp
  cases lb <;> cases ub <;> simp [headC, initC, testC, boundC, hp.1.1, hp.1.2, hp.2]

theorem blank_eqn (q : Eqn) : (printEqn q).all blank = true := by
  unfold printEqn
  rw [List.all_append, List.all_cons, List.all_cons, List.all_cons, blank_toks, blank_toks]
  rfl

theorem blank_eqns : ∀ qs, (printEqns qs).all blank = true
  | [] => rfl
  | q :: qs => by
    rw [printEqns]
    simp only [List.all_cons, List.all_append, blank_eqn, blank_eqns qs]
    rfl

theorem blank_cond : ∀ qs, (printCond qs).all blank = true
  | [] => rfl
  | [q] => by
    rw [printCond, List.all_cons, List.all_append, blank_eqn]
    rfl
  | q :: q2 :: qs => by
    rw [printCond]
    · simp only [List.all_cons, List.all_append, blank_eqn, blank_eqns]
      rfl
    · simp

theorem calm_args : ∀ es : List Expr, (printArgs es).all (fun t => decide (t ≠ .andand)) = true
  | [] => rfl
  | [e] => by rw [printArgs]; exact calm_parens _ (calm_expr e)
  | e :: e2 :: es => by
    rw [printArgs, List.all_append, List.all_cons, calm_parens _ (calm_expr e), calm_args (e2 :: es)]
    · rfl
    · simp

theorem okSs_append {nm : Nat → String} : ∀ {a b : List Stmt}, okSs nm (a ++ b) = true ↔ okSs nm a = true ∧ okSs nm b = true
  | [], b => by simp [okSs]
  | s :: a, b => by rw [List.cons_append, okSs, okSs, Bool.and_eq_true, Bool.and_eq_true, okSs_append, and_assoc]

theorem name_ok {x : String} (h : name x = true) : okE (.name x) = true := by
  simp only [okE, PExpr.ok, idents, name_ident h]
  rfl

theorem asgs_ok {nm : Nat → String} {a : Attr} {lb ub : Expr} (h1 : okE lb = true) (h2 : okE ub = true) :
    okSs nm (asgs a lb ub) = true := by
  unfold asgs
  split
  · have e1 : name "_lb_dist" = true := by decide
    have e2 : name "_ub_dist" = true := by decide
    have e3 : name "lbp" = true := by decide
    have e4 : name "ubp" = true := by decide
    simp [okSs, okS, h1, h2, e1, e2, e3, e4, name_ok]
  · simp [okSs, okS, h1, h2, vars_name]

theorem desug_par {it : String} {l u : Expr} {s : Int} {a : Attr} {b : List PStmt} (h : par a = true) :
    desug (.for_ it (some l) (some u) s a b) =
      asgs a l u ++ [.for_ it (some (.name (headVars a).1)) (some (.name (headVars a).2)) s (desugs b)] := by
  simp [desug, h]

theorem desug_plain {it : String} {l u : Option Expr} {s : Int} {a : Attr} {b : List PStmt} (h : par a = false) :
    desug (.for_ it l u s a b) = [.for_ it l u s (desugs b)] := by
  cases l <;> cases u <;> simp [desug, h]

mutual
theorem desug_ok {nm : Nat → String} : ∀ p, form p = true → okS nm (strip p) = true → okSs nm (desug p) = true
  | .root, h, _ => by simp [form] at h
  | .ass (some x) e, _, h => by simpa [desug, okSs, strip] using h
  | .ass none e, h, _ => by simp [form] at h
  | .user k args, _, h => by simpa [desug, okSs, strip] using h
  | .block b, hf, h => by
    simp only [form, strip, okS] at hf h
    simp only [desug, okSs, okS, desugs_ok b hf h]
    rfl
  | .guard qs b, hf, h => by
    simp only [form, strip, okS, Bool.and_eq_true] at hf h
    simp only [desug, okSs, okS, desugs_ok b hf h.2, Bool.and_true, Bool.and_eq_true]
    exact h.1
  | .for_ it lb ub s a b, hf, h => by
    simp only [form, strip, okS, Bool.and_eq_true] at hf h
    have hb := desugs_ok b hf.2 h.2
    by_cases hp : par a = true
    · have hbd := hf.1.2
      simp only [hp, Bool.not_true, Bool.false_or, Bool.and_eq_true, Option.isSome_iff_exists] at hbd
      obtain ⟨⟨l, rfl⟩, ⟨u, rfl⟩⟩ := hbd
      have := asgs_ok (nm := nm) (a := a) (lb := l) (ub := u) h.1.1.1.2 h.1.1.2
      rw [desug_par hp, okSs_append]
      refine ⟨this, ?_⟩
      simp only [okSs, okS, okO, name_ok (vars_name a).1, name_ok (vars_name a).2, hb, h.1.1.1.1, h.1.2]
      rfl
    · rw [desug_plain (by simpa using hp)]
      simp only [okSs, okS, hb, h.1.1.1.1, h.1.1.1.2, h.1.1.2, h.1.2]
      rfl
theorem desugs_ok {nm : Nat → String} : ∀ ps, forms ps = true → okSs nm (strips ps) = true → okSs nm (desugs ps) = true
  | [], _, _ => rfl
  | p :: ps, hf, h => by
    simp only [forms, strips, okSs, Bool.and_eq_true] at hf h
    rw [desugs, okSs_append]
    exact ⟨desug_ok p hf.1 h.1, desugs_ok ps hf.2 h.2⟩
end

/-- The header of a loop, as a line. -/
theorem for_line {it : String} (hi : name it = true) {lb ub : Option Expr} (hl : okO lb = true) (hu : okO ub = true)
    {s : Int} (hs : 0 < s) (n : Nat) :
    Line (.tok (.id "for") :: sp :: .tok .lpar :: (toks (printHead it lb ub s) ++ [sp, .tok .lbrace])) ∧
    Pass (text (ind n :: ((.tok (.id "for") :: sp :: .tok .lpar :: (toks (printHead it lb ub s) ++ [sp, .tok .lbrace])) ++ [nl])))
      (text (ind n :: ((.tok (.id "for") :: sp :: .tok .lpar :: (toks (printHead it lb ub s) ++ [sp, .tok .lbrace])) ++ [nl]))) ∧
    text (ind n :: ((.tok (.id "for") :: sp :: .tok .lpar :: (toks (printHead it lb ub s) ++ [sp, .tok .lbrace])) ++ [nl])) =
      indC n ++ headC .c it lb ub s {} := by
  have hL : Line (.tok (.id "for") :: sp :: .tok .lpar :: (toks (printHead it lb ub s) ++ [sp, .tok .lbrace])) := by
    intro ps hps
    refine sepFrom_tok rfl (sepFrom_sp (sepFrom_tok rfl ?_))
    simp only [List.append_eq, List.append_assoc]
    apply head_glue (name_ident hi) hl hu hs
    exact sepFrom_sp (sepFrom_tok rfl (sepFrom_nl hps))
  refine ⟨hL, ?_, ?_⟩
  · refine hL.start ?_ n (c := 'f') (r := "or (".toList ++ text (toks (printHead it lb ub s) ++ [sp, .tok .lbrace])) rfl (by decide)
    rw [List.all_cons, List.all_cons, List.all_cons, List.all_append, blank_toks]
    rfl
  · rw [text_line, head_eq, text_cons, text_cons, text_cons, text_append, text_toks]
    simp [Piece.chars, spell, sp, text, lit_eq]

mutual
theorem show_stmt {f : Cfg} (hl : f.lang = .c) (hb : f.callable = true ∨ ∀ k, f.body k = none) :
    ∀ (p : PStmt) (n : Nat) (last : Bool) (t : List Char), form p = true → okS (nmOf f) (strip p) = true →
      stmtC f n last p = some t → Shown (nmOf f) n t (desug p)
  | .root, n, last, t, hf, _, _ => by simp [form] at hf
  | .ass none e, n, last, t, hf, _, _ => by simp [form] at hf
  | .ass (some x) e, n, last, t, _, h, ht => by
    have h' := h
    simp only [strip, okS, Bool.and_eq_true] at h'
    have hL : Line (.tok (.id x) :: sp :: .tok .asg :: sp :: (toks (printExpr e) ++ [.tok .semi])) := by
      intro ps hps
      have := stmt_glue (nmOf f) (.ass x e) n h hps
      rw [printStmt] at this
      simpa using this
    have hc : (Piece.tok (.id x) :: sp :: .tok .asg :: sp :: (toks (printExpr e) ++ [.tok .semi])).all calm = true := by
      simp only [List.all_cons, List.all_append, calm_toks (calm_expr e)]
      simp [calm, sp]
    have hs := stmt_eq hl hb n last (.ass x e)
    rw [emb, ht, printStmt] at hs
    cases hs
    have := Shown.one (nm := nmOf f) (n := n) hL (hL.quiet hc n) (s := .ass x e) (by
      simp [printStmt, tokens, tokens_append, sp, nl])
    rw [desug]
    simpa using this
  | .user k args, n, last, t, hf, h, ht => by
    have he : (args.map (·.2)).map (fun e => ((none : Option String), e)) = args := by
      simp only [form, List.all_eq_true, Option.isNone_iff_eq_none] at hf
      rw [List.map_map]
      conv => rhs; rw [← List.map_id args]
      refine List.map_congr_left fun a ha => ?_
      have := hf a ha
      obtain ⟨x, e⟩ := a
      simp only at this
      subst this
      rfl
    have hL : Line (toks (.id (nmOf f k) :: .lpar :: (printArgs (args.map (·.2)) ++ [.rpar, .semi]))) := by
      intro ps hps
      have := stmt_glue (nmOf f) (.user k (args.map (·.2))) n (by simpa [strip] using h) hps
      rw [printStmt, List.append_assoc] at this
      exact this
    have hc : (toks (.id (nmOf f k) :: .lpar :: (printArgs (args.map (·.2)) ++ [.rpar, .semi]))).all calm = true := by
      refine calm_toks ?_
      rw [List.all_cons, List.all_cons, List.all_append, calm_args]
      rfl
    have hs := stmt_eq hl hb n last (.user k (args.map (·.2)))
    rw [emb, he, ht, printStmt] at hs
    cases hs
    have := Shown.one (nm := nmOf f) (n := n) hL (hL.quiet hc n) (s := .user k (args.map (·.2))) (by
      simp [printStmt, tokens, tokens_append, nl])
    rw [desug]
    exact this
  | .block b, n, last, t, hf, h, ht => by
    simp only [form, strip, okS] at hf h
    rw [stmtC, Option.map_eq_some_iff] at ht
    obtain ⟨tb, htb, rfl⟩ := ht
    have hbody := show_stmts hl hb b (n + indentStep) tb hf h htb
    have hL : Line [.tok .lbrace] := fun ps h => sepFrom_tok rfl (sepFrom_nl h)
    have := Shown.wrap hL (hL.quiet (by decide) n) hbody (s := .block (desugs b)) (by
      simp [printStmt, tokens, tokens_append, nl, ind])
    rw [text_line] at this
    rw [desug]
    simpa [text, Piece.chars, spell, lit_eq] using this
  | .guard qs b, n, last, t, hf, h, ht => by
    simp only [form, strip, okS, Bool.and_eq_true, Bool.not_eq_true', List.isEmpty_eq_false_iff] at hf h
    rw [stmtC, Option.map_eq_some_iff] at ht
    obtain ⟨tb, htb, rfl⟩ := ht
    have hbody := show_stmts hl hb b (n + indentStep) tb hf h.2 htb
    have hL : Line (.tok (.id "if") :: sp :: (printCond qs ++ [sp, .tok .lbrace])) := by
      intro ps hps
      refine sepFrom_tok rfl (sepFrom_sp ?_)
      simp only [List.append_eq, List.append_assoc]
      exact cond_glue h.1.1 h.1.2 (sepFrom_sp (sepFrom_tok rfl (sepFrom_nl hps)))
    have hp := hL.start (by
      rw [List.all_cons, List.all_cons, List.all_append, blank_cond]
      rfl) n (c := 'i') (r := "f ".toList ++ text (printCond qs ++ [sp, .tok .lbrace])) rfl (by decide)
    have := Shown.wrap hL hp hbody (s := .guard qs (desugs b)) (by
      simp [printStmt, tokens, tokens_append, nl, ind, sp])
    rw [text_line, text_cons, text_cons, text_append] at this
    rw [desug, hl, cond_eq]
    simpa [text, Piece.chars, spell, lit_eq, ifC, sp] using this
  | .for_ it lb ub s a b, n, last, t, hf, h, ht => by
    simp only [form, strip, okS, Bool.and_eq_true, decide_eq_true_eq] at hf h
    rw [stmtC, Option.map_eq_some_iff] at ht
    obtain ⟨tb, htb, rfl⟩ := ht
    have hbody := show_stmts hl hb b (n + indentStep) tb hf.2 h.2 htb
    have hti : a.timeVar = none := by
      have := hf.1.1
      simp only [attrOK, Bool.and_eq_true, Option.isNone_iff_eq_none] at this
      exact this.1.1.1
    have hafter : afterC .c a = lit "}\n" := by simp [afterC, hti, timeEnd, forC]
    rw [hl, if_pos rfl, hafter]
    by_cases hp : par a = true
    · have hbd := hf.1.2
      simp only [hp, Bool.not_true, Bool.false_or, Bool.and_eq_true, Option.isSome_iff_exists] at hbd
      obtain ⟨⟨l, rfl⟩, ⟨u, rfl⟩⟩ := hbd
      obtain ⟨pre, e1, hpre⟩ := before_shown (nm := nmOf f) hf.1.1 hp h.1.1.1.2 h.1.1.2 n
      obtain ⟨hL, hP, hT⟩ := for_line (it := it) h.1.1.1.1 (lb := some (.name (headVars a).1))
        (ub := some (.name (headVars a).2)) (name_ok (vars_name a).1) (name_ok (vars_name a).2) h.1.2 n
      have hw := Shown.wrap hL hP hbody
        (s := .for_ it (some (.name (headVars a).1)) (some (.name (headVars a).2)) s (desugs b)) (by
          simp [printStmt, tokens, tokens_append, nl, ind, sp])
      rw [hT] at hw
      have := hpre.append hw
      rw [desug_par hp, head_par hp, ← List.append_assoc (indC n) (beforeC _ _ _ _), e1]
      simpa using this
    · have hp' : par a = false := by simpa using hp
      obtain ⟨hL, hP, hT⟩ := for_line (it := it) h.1.1.1.1 (lb := lb) (ub := ub) h.1.1.1.2 h.1.1.2 h.1.2 n
      have hw := Shown.wrap hL hP hbody (s := .for_ it lb ub s (desugs b)) (by
          simp [printStmt, tokens, tokens_append, nl, ind, sp])
      rw [hT] at hw
      rw [desug_plain hp', before_none hf.1.1 hp', head_plain hp']
      simpa using hw
theorem show_stmts {f : Cfg} (hl : f.lang = .c) (hb : f.callable = true ∨ ∀ k, f.body k = none) :
    ∀ (ps : List PStmt) (n : Nat) (t : List Char), forms ps = true → okSs (nmOf f) (strips ps) = true →
      stmtsC f n ps = some t → Shown (nmOf f) n t (desugs ps)
  | [], n, t, _, _, ht => by
    cases ht
    exact Shown.nil
  | p :: ps, n, t, hf, h, ht => by
    simp only [forms, strips, okSs, Bool.and_eq_true] at hf h
    rw [stmtsC] at ht
    cases h1 : stmtC f n ps.isEmpty p with
    | none => rw [h1] at ht; simp [cat] at ht
    | some t1 =>
      cases h2 : stmtsC f n ps with
      | none => rw [h1, h2] at ht; simp [cat] at ht
      | some t2 =>
        rw [h1, h2, cat] at ht
        cases ht
        exact (show_stmt hl hb p n _ t1 hf.1 h.1 h1).append (show_stmts hl hb ps n t2 hf.2 h.2 h2)
end

/-! ## C53 -/

/-- The sequential program in the text, with the assignments. -/
theorem desug_program (f : Cfg) (hl : f.lang = .c) (hb : f.callable = true ∨ ∀ k, f.body k = none) (n : Nat)
    (ps : List PStmt) (hform : forms ps = true) (hok : okSs (nmOf f) (strips ps) = true)
    (t : List Char) (ht : stmtsC f n ps = some t) :
    ∃ p, Program (sequential t) p ∧ ∀ env tr e, Exec (desugs ps) env tr e →
      Run p env (tr.map (ev (nmOf f))) e ∧ ∀ tr' e', Run p env tr' e' → tr' = tr.map (ev (nmOf f)) ∧ e' = e := by
  obtain ⟨qs, h1, h2, h3⟩ := show_stmts hl hb ps n t hform hok ht
  obtain ⟨p, hp, htr⟩ := stmts_parse (nmOf f) (desugs ps) n (desugs_ok ps hform hok)
  rw [← h3] at hp
  refine ⟨p, ⟨tokens qs, ?_, hp, fun p' hp' => stmts_unique hp' hp⟩, ?_⟩
  · have h := h1 []
    have hnil : sequential [] = [] := by decide
    rw [List.append_nil, hnil, List.append_nil] at h
    rw [h]
    have hs := h2 [] trivial
    rw [List.append_nil] at hs
    exact lex_text _ none hs
  · intro env tr e hx
    have hr := exec_run hx htr
    exact ⟨hr, fun tr' e' hr' => run_det hr' hr⟩

/-- C53.  The text of a program with parallel loops, read by a compiler that ignores the directives, is one
program, and executes what the loops without annotations execute; only the variables for the bounds have
other values afterwards.  (Missing: nested parallel loops that use the same variables, where it is false,
`C53_nested`; Fortran, where it is false, `C53_fortran`.) -/
theorem C53_parallel_partial (f : Cfg) (hl : f.lang = .c) (hb : f.callable = true ∨ ∀ k, f.body k = none) (n : Nat)
    (ps : List PStmt) (hform : forms ps = true) (hok : okSs (nmOf f) (strips ps) = true)
    (hfree : (readsS (strips ps) ++ setsS (strips ps)).all (fun x => !boundVars.contains x) = true)
    (hsafe : safes ps = true) (t : List Char) (ht : stmtsC f n ps = some t) :
    ∃ p, Program (sequential t) p ∧ ∀ env tr env', Exec (strips ps) env tr env' →
      ∃ e, Run p env (tr.map (ev (nmOf f))) e ∧ (∀ x, x ∉ boundVars → e x = env' x) ∧
        ∀ tr' e', Run p env tr' e' → tr' = tr.map (ev (nmOf f)) ∧ e' = e := by
  obtain ⟨p, hp, hr⟩ := desug_program f hl hb n ps hform hok t ht
  refine ⟨p, hp, fun env tr env' hx => ?_⟩
  have hfr : Free (readsS (strips ps) ++ setsS (strips ps)) := by
    intro x hx
    rw [List.all_eq_true] at hfree
    simpa using hfree x hx
  obtain ⟨e, g1, g2, _⟩ := par_exec hx (ann_forms ps hform) hform hsafe hfr.left hfr.right (e := env) (fun _ _ => rfl)
  exact ⟨e, (hr _ _ _ g1).1, g2, (hr _ _ _ g1).2⟩

/-- Two processes' worth of annotations: a distributed loop with threads around a vectorised loop. -/
def exPar : List PStmt :=
  [.for_ "i" (some (.cst 0)) (some (.name "N")) 1 { omp := true, mpi := true, privateVars := some "j" }
    [.guard [⟨.name "i", .cst 3, 1⟩] [.for_ "j" (some (.name "i")) (some (.cst 7)) 2 { vec := true }
      [.user 0 [(none, .name "i"), (none, .name "j")]]]]]

/-- Statements without bodies. -/
def exCfg : Cfg := ⟨.c, false, fun _ => none, fun _ => none⟩

example : forms exPar = true ∧ okSs (nmOf exCfg) (strips exPar) = true ∧
    (readsS (strips exPar) ++ setsS (strips exPar)).all (fun x => !boundVars.contains x) = true ∧
    safes exPar = true ∧ stmtsC exCfg 0 exPar = some
      ("_lb_dist=0;\n_ub_dist=N;\npolyrt_loop_dist(_lb_dist, _ub_dist, nprocs, my_rank, &lbp, &ubp);\n" ++
       "#pragma omp parallel for private(j)\nfor (i=lbp;i<=ubp;i++) {\n  if (i >= 3) {\n    lbv=i;\n    ubv=7;\n" ++
       "    #pragma ivdep\n    #pragma vector always\n    for (j=lbv;j<=ubv;j+=2) {\n      S0((i),(j));\n    }\n  }\n}\n").toList := by
  decide +kernel

example : sequential ("_lb_dist=0;\n_ub_dist=N;\npolyrt_loop_dist(_lb_dist, _ub_dist, nprocs, my_rank, &lbp, &ubp);\n" ++
      "#pragma omp parallel for private(j)\nfor (i=lbp;i<=ubp;i++) {\n  S0(i);\n}\n").toList =
    ("_lb_dist=0;\n_ub_dist=N;\nlbp=_lb_dist;ubp=_ub_dist;\n\nfor (i=lbp;i<=ubp;i++) {\n  S0(i);\n}\n").toList := by
  decide +kernel

/-- A parallel loop in a parallel loop. -/
def exNest : List PStmt :=
  [.for_ "i" (some (.cst 0)) (some (.cst 1)) 1 { omp := true }
    [.for_ "j" (some (.cst 0)) (some (.cst 0)) 1 { omp := true } [.user 0 [(none, .name "i"), (none, .name "j")]]]]

/-- C53 is false for nested parallel loops: the inner loop overwrites `ubp`, the bound of the outer one.  The
loops execute two instances, the printed program one. -/
theorem C53_nested : ∃ t p, stmtsC exCfg 0 exNest = some t ∧ Program (sequential t) p ∧
    (∃ e, Exec (strips exNest) (fun _ => 0) [⟨0, [0, 0]⟩, ⟨0, [1, 0]⟩] e) ∧
    ∀ tr e, Run p (fun _ => 0) tr e → tr = [ev (nmOf exCfg) ⟨0, [0, 0]⟩] := by
  obtain ⟨t, ht⟩ : ∃ t, stmtsC exCfg 0 exNest = some t := Option.isSome_iff_exists.1 (by decide +kernel)
  obtain ⟨p, hp, hr⟩ := desug_program exCfg rfl (Or.inr fun _ => rfl) 0 exNest (by decide +kernel) (by decide +kernel) t ht
  refine ⟨t, p, ht, hp, ?_, ?_⟩
  · exact ⟨_, .for_ (t1 := [⟨0, [0, 0]⟩, ⟨0, [1, 0]⟩])
      (.step (t1 := [⟨0, [0, 0]⟩]) (by simp [Expr.eval]) (.for_ (t1 := [⟨0, [0, 0]⟩])
        (.step (t1 := [⟨0, [0, 0]⟩]) (by simp [Expr.eval]) (.user (args := [.name "i", .name "j"]) (.nil _))
          (.done (by simp [Expr.eval]))) (.nil _))
      (.step (t1 := [⟨0, [1, 0]⟩]) (by simp [Expr.eval]) (.for_ (t1 := [⟨0, [1, 0]⟩])
        (.step (t1 := [⟨0, [1, 0]⟩]) (by simp [Expr.eval]) (.user (args := [.name "i", .name "j"]) (.nil _))
          (.done (by simp [Expr.eval]))) (.nil _))
      (.done (by simp [Expr.eval])))) (.nil _)⟩
  · intro tr e hx
    have : ∃ e, Exec (desugs exNest) (fun _ => 0) [⟨0, [0, 0]⟩] e := ⟨_, .ass (.ass (.for_ (t1 := [⟨0, [0, 0]⟩])
      (.step (t1 := [⟨0, [0, 0]⟩]) (by simp [Expr.eval, headVars]) (.ass (.ass (.for_ (t1 := [⟨0, [0, 0]⟩])
        (.step (t1 := [⟨0, [0, 0]⟩]) (by simp [Expr.eval, headVars]) (.user (args := [.name "i", .name "j"]) (.nil _))
          (.done (by simp [Expr.eval, headVars]))) (.nil _))))
      (.done (by simp [Expr.eval, headVars]))) (.nil _)))⟩
    obtain ⟨e0, h0⟩ := this
    exact ((hr _ _ _ h0).2 tr e hx).1

/-- C53 is false in Fortran: the text of a parallel loop does not depend on the bounds. -/
theorem C53_fortran (it : String) (lb ub lb' ub' : Expr) (s : Int) (a : Attr) (h : par a = true) (f : Cfg)
    (hf : f.lang = .fortran) (n : Nat) (last : Bool) (b : List PStmt) :
    stmtC f n last (.for_ it (some lb) (some ub) s a b) = stmtC f n last (.for_ it (some lb') (some ub') s a b) := by
  have h1 : ∀ l l' : Expr, initC .fortran it a (some l) = initC .fortran it a (some l') := by
    intro l l'
    simp only [initC, boundC]
    simp only [par, Bool.or_eq_true] at h
    rcases h with (h | h) | h <;> simp [h]
  have h2 : ∀ l l' : Expr, testC .fortran it a (some l) = testC .fortran it a (some l') := by
    intro l l'
    simp only [testC, boundC]
    simp only [par, Bool.or_eq_true] at h
    rcases h with (h | h) | h <;> simp [h]
  simp only [stmtC, hf, headC, h1 lb lb', h2 ub ub']
  simp

example : par { vec := true } = true ∧
    (⟨.fortran, false, fun _ => none, fun _ => none⟩ : Cfg).lang = .fortran := by decide

end Verif.Props.Parallel
