import Verif.Model.Callable
import Verif.Props.Steady
import Verif.Props.FProg

/-!
# C81: loops without bounds under the option `-callable`
-/

namespace Verif.Props.Callable
open Verif.IntOps Verif.Clast Verif.ClastGen Verif.ClastNames Verif.Steady Verif.Callable
open Verif.PPrint Verif.CText Verif.PText Verif.PStmt Verif.PGlue Verif.CParse Verif.Bound Verif.PClast Verif.PExpr
open Verif.Props.PPrint Verif.Props.Parallel Verif.Props.PText Verif.Props.Steady Verif.Props.ClastExec

/-! ## Specification -/

/-- The first value of a loop: its own, or 1000 below the last value, or -1000. -/
def first (env : Env) : Option Expr → Option Expr → Int
  | some l, _ => l.eval env
  | none, some u => u.eval env - 1000
  | none, none => -1000

/-- The last value of a loop: its own, or 1000 above the first value, or 1000. -/
def last (env : Env) : Option Expr → Option Expr → Int
  | _, some u => u.eval env
  | some l, none => l.eval env + 1000
  | none, none => 1000

/-! ## Lemmas -/

theorem forBound_some (lb ub : Option Expr) : ∃ l u, forBound lb ub = (some l, some u) ∧
    (∀ env, l.eval env = first env lb ub) ∧ ∀ env, u.eval env = last env lb ub := by
  cases lb <;> cases ub <;> refine ⟨_, _, rfl, fun env => ?_, fun env => ?_⟩ <;>
    simp [first, last, Expr.eval, evalList, RedType.eval, Props.Expr.copy_eq] <;> omega

theorem forBound_reads (lb ub : Option Expr) : ∀ x, x ∈ readsO (forBound lb ub).2 → x ∈ readsO ub ∨ x ∈ readsO lb := by
  cases lb <;> cases ub <;> intro x hx <;> simp [forBound, readsO, readsE, readsEs, reads_copy] at hx ⊢ <;> tauto

mutual
theorem sets_bounded : ∀ s, sets (bounded s) = sets s
  | .for_ _ _ _ _ b => by simp only [bounded, sets, setsS_bounded b]
  | .guard _ b => by simp only [bounded, sets, setsS_bounded b]
  | .block b => by simp only [bounded, sets, setsS_bounded b]
  | .ass _ _ => rfl
  | .user _ _ => rfl
theorem setsS_bounded : ∀ ss, setsS (boundeds ss) = setsS ss
  | [] => rfl
  | s :: ss => by simp only [boundeds, setsS, sets_bounded s, setsS_bounded ss]
end

theorem in_bounded : ∀ {s ss}, In s ss → In (bounded s) (boundeds ss)
  | _, _, .here => by rw [boundeds]; exact .here
  | _, _, .next h => by rw [boundeds]; exact .next (in_bounded h)
  | _, _, .block h => by rw [boundeds, bounded]; exact .block (in_bounded h)
  | _, _, .guard h => by rw [boundeds, bounded]; exact .guard (in_bounded h)
  | _, _, .loop h => by rw [boundeds, bounded]; exact .loop (in_bounded h)

mutual
theorem of_in1 : ∀ (a : Stmt) (ss : List Stmt) {s}, In s (bounded a :: ss) →
    (∃ s', In s' [a] ∧ s = bounded s') ∨ In s ss
  | .for_ it lb ub k b, ss, s, h => by
    rw [bounded] at h
    cases h with
    | here => exact Or.inl ⟨_, .here, by rw [bounded]⟩
    | next h => exact Or.inr h
    | loop h =>
      obtain ⟨s', h1, h2⟩ := of_in b h
      exact Or.inl ⟨s', .loop h1, h2⟩
  | .guard q b, ss, s, h => by
    rw [bounded] at h
    cases h with
    | here => exact Or.inl ⟨_, .here, by rw [bounded]⟩
    | next h => exact Or.inr h
    | guard h =>
      obtain ⟨s', h1, h2⟩ := of_in b h
      exact Or.inl ⟨s', .guard h1, h2⟩
  | .block b, ss, s, h => by
    rw [bounded] at h
    cases h with
    | here => exact Or.inl ⟨_, .here, by rw [bounded]⟩
    | next h => exact Or.inr h
    | block h =>
      obtain ⟨s', h1, h2⟩ := of_in b h
      exact Or.inl ⟨s', .block h1, h2⟩
  | .ass x e, ss, s, h => by
    rw [bounded] at h
    cases h with
    | here => exact Or.inl ⟨_, .here, by rw [bounded]⟩
    | next h => exact Or.inr h
  | .user x e, ss, s, h => by
    rw [bounded] at h
    cases h with
    | here => exact Or.inl ⟨_, .here, by rw [bounded]⟩
    | next h => exact Or.inr h
theorem of_in : ∀ (ss : List Stmt) {s}, In s (boundeds ss) → ∃ s', In s' ss ∧ s = bounded s'
  | [], _, h => by rw [boundeds] at h; cases h
  | a :: ss, s, h => by
    rw [boundeds] at h
    rcases of_in1 a _ h with ⟨s', h1, h2⟩ | h
    · refine ⟨s', ?_, h2⟩
      cases h1 with
      | here => exact .here
      | next h => cases h
      | block h' => exact .block h'
      | guard h' => exact .guard h'
      | loop h' => exact .loop h'
    · obtain ⟨s', h1, h2⟩ := of_in ss h
      exact ⟨s', .next h1, h2⟩
end

mutual
theorem exec_bounded : ∀ {ss env t env'}, Exec ss env t env' → Exec (boundeds ss) env t env'
  | _, _, _, _, .nil env => by rw [boundeds]; exact .nil env
  | _, _, _, _, .ass h => by rw [boundeds, bounded]; exact .ass (exec_bounded h)
  | _, _, _, _, .user h => by rw [boundeds, bounded]; exact .user (exec_bounded h)
  | _, _, _, _, .block h1 h2 => by rw [boundeds, bounded]; exact .block (exec_bounded h1) (exec_bounded h2)
  | _, _, _, _, .guardT hq h1 h2 => by rw [boundeds, bounded]; exact .guardT hq (exec_bounded h1) (exec_bounded h2)
  | _, _, _, _, .guardF hq h => by rw [boundeds, bounded]; exact .guardF hq (exec_bounded h)
  | _, _, _, _, .for_ h1 h2 => by
    rw [boundeds, bounded]
    simp only [forBound]
    exact .for_ (for_bounded h1) (exec_bounded h2)
theorem for_bounded : ∀ {it u k b env t env'}, ForExec it u k b env t env' → ForExec it u k (boundeds b) env t env'
  | _, _, _, _, _, _, _, .done h => .done h
  | _, _, _, _, _, _, _, .step h h1 h2 => .step h (exec_bounded h1) (for_bounded h2)
end

theorem forBound_ok {lb ub : Option Expr} (h1 : okO lb = true) (h2 : okO ub = true) :
    okO (forBound lb ub).1 = true ∧ okO (forBound lb ub).2 = true := by
  cases lb <;> cases ub <;> simp_all [forBound, okO, okE, ok, okTail, isTerm, coef, idents, identss, Props.Expr.copy_eq]

mutual
theorem ok_bounded (nm : Nat → String) : ∀ s, okS nm s = true → okS nm (bounded s) = true
  | .for_ it lb ub k b, h => by
    simp only [bounded, okS, Bool.and_eq_true] at h ⊢
    obtain ⟨h1, h2⟩ := forBound_ok h.1.1.1.2 h.1.1.2
    exact ⟨⟨⟨⟨h.1.1.1.1, h1⟩, h2⟩, h.1.2⟩, oks_bounded nm b h.2⟩
  | .guard q b, h => by
    simp only [bounded, okS, Bool.and_eq_true] at h ⊢
    exact ⟨h.1, oks_bounded nm b h.2⟩
  | .block b, h => by
    simp only [bounded, okS] at h ⊢
    exact oks_bounded nm b h
  | .ass x e, h => by rw [bounded]; exact h
  | .user x e, h => by rw [bounded]; exact h
theorem oks_bounded (nm : Nat → String) : ∀ ss, okSs nm ss = true → okSs nm (boundeds ss) = true
  | [], _ => by rw [boundeds, okSs]
  | s :: ss, h => by
    simp only [boundeds, okSs, Bool.and_eq_true] at h ⊢
    exact ⟨ok_bounded nm s h.1, oks_bounded nm ss h.2⟩
end

theorem fixed_bounded {it : String} {lb ub : Option Expr} {k : Int} {b : List Stmt}
    (h : steady true (.for_ it lb ub k b) = true) : Fixed it (forBound lb ub).2 (boundeds b) := by
  simp only [steady, Bool.and_eq_true, decide_eq_true_eq] at h
  have h3 := h.1.2 trivial
  have hr : ∀ x ∈ readsO (forBound lb ub).2, x ≠ it ∧ x ∉ setsS b := fun x hx =>
    (forBound_reads lb ub x hx).elim (h.1.1.2 x) (h3 x)
  refine ⟨fun env t env' hx => ⟨exec_keeps hx it (by rw [setsS_bounded]; exact h.1.1.1), fun u hu => ?_⟩, fun u hu env v => ?_⟩
  · rw [hu] at hr
    exact eval_congr u (fun x hm => exec_keeps hx x (by rw [setsS_bounded]; exact (hr x hm).2))
  · rw [hu] at hr
    exact eval_congr u (fun x hm => Function.update_of_ne (hr x hm).1 _ _)

theorem rounds_bounded {it : String} {lb ub : Option Expr} {k : Int} {b : List Stmt}
    (h : steady true (.for_ it lb ub k b) = true) (hk : 0 < k) {l u : Expr} (h1 : forBound lb ub = (some l, some u))
    (h2 : ∀ env, l.eval env = first env lb ub) (h3 : ∀ env, u.eval env = last env lb ub) (env : Env) (t : List Event)
    (env' : Env) : Exec [.for_ it (some l) (some u) k (boundeds b)] env t env' ↔
      Rounds it k (boundeds b) (count (first env lb ub) (last env lb ub) k) (first env lb ub)
        (Function.update env it (first env lb ub)) t env' := by
  have hf := fixed_bounded h
  rw [h1] at hf
  constructor
  · intro hx
    cases hx with
    | for_ hx hn =>
      cases hn
      rw [List.append_nil]
      have := rounds_of hf hk hx
      rw [h2, Function.update_self, hf.2 u rfl, h3] at this
      exact this
  · intro hr
    have := for_of_rounds hf hk hr (by rw [hf.2 u rfl, h3])
    rw [← List.append_nil t]
    refine .for_ ?_ (.nil _)
    rw [h2]
    exact this

/-! ## Theorems -/

/-- Every loop of the clast made with the option has a first and a last value, and comes from a loop of the clast made
without it with the same iterator and step; where that loop has a bound it keeps its value. -/
theorem C81_closed {cx : Ctx} {icmp : Int → Int → Int} {loops : List Loop} {ss ss' : List Stmt}
    (h : clastCreate cx icmp loops = some ss) (h' : clastCreateCallable cx icmp loops = some ss')
    {it : String} {lb' ub' : Option Expr} {k : Int} {b' : List Stmt} (hi : In (.for_ it lb' ub' k b') ss') :
    ∃ lb ub b l u, In (.for_ it lb ub k b) ss ∧ lb' = some l ∧ ub' = some u ∧
      (∀ env, l.eval env = first env lb ub) ∧ ∀ env, u.eval env = last env lb ub := by
  rw [clastCreateCallable, h, Option.map_some, Option.some.injEq] at h'
  subst h'
  obtain ⟨s, h1, h2⟩ := of_in ss hi
  cases s with
  | for_ it0 lb ub k0 b =>
    rw [bounded] at h2
    obtain ⟨l, u, h3, h4, h5⟩ := forBound_some lb ub
    rw [h3] at h2
    cases h2
    exact ⟨lb, ub, b, l, u, h1, rfl, rfl, h4, h5⟩
  | _ => rw [bounded] at h2; cases h2

/-- A run of the clast made without the option is a run of the one made with it: only loops without a bound, which
have no run, are changed. -/
theorem C81_runs {cx : Ctx} {icmp : Int → Int → Int} {loops : List Loop} {ss : List Stmt}
    (h : clastCreate cx icmp loops = some ss) : ∃ ss', clastCreateCallable cx icmp loops = some ss' ∧
      ∀ env t env', Exec ss env t env' → Exec ss' env t env' :=
  ⟨boundeds ss, by rw [clastCreateCallable, h]; rfl, fun _ _ _ hx => exec_bounded hx⟩

/-- So C25 holds with the option: the instances of the loop tree are executed, in order. -/
theorem C81_tree_partial (cx : Ctx) (hsort : ∀ l, (cx.sort l).Perm l) (hgsort : ∀ l, (cx.gsort l).Perm l)
    (hn : NamesOK cx.nm) (icmp : Int → Int → Int) (p x : Nat → Int) (loops : List Loop) (tr : List Event)
    (hW : WfLoops cx p 0 (fun _ => false) [] (fun _ => none) (fun _ => True) loops)
    (hrun : TreeRun cx.nm p 0 loops x tr) (ss : List Stmt) (h : clastCreateCallable cx icmp loops = some ss)
    (env : Env) (henv : ∀ k, k < cx.nm.nPar → env (cx.nm.param k) = p k) : ∃ env', Exec ss env tr env' := by
  rw [clastCreateCallable, Option.map_eq_some_iff] at h
  obtain ⟨ss0, h0, rfl⟩ := h
  obtain ⟨⟨env', hx⟩, -⟩ := C25_program_executes_tree_partial cx hsort hgsort hn icmp p x loops tr hW hrun ss0 h0 env henv
  exact ⟨env', exec_bounded hx⟩

/-- The text printed for it is a C program, can be read in one way, and does what the clast says. -/
theorem C81_program (nm : Nat → String) (hnm : ∀ k, name (nm k) = true) (cx : Ctx) (hc : CtxPrint cx)
    (icmp : Int → Int → Int) (loops : List Loop) (hl : loopsOK loops = true) (ss : List Stmt)
    (h : clastCreateCallable cx icmp loops = some ss) (n : Nat) :
    ∃ p, Program (text (printStmts nm n ss)) p ∧ ∀ env tr env', Exec ss env tr env' →
      Run p env (tr.map (ev nm)) env' ∧ ∀ tr' e', Run p env tr' e' → tr' = tr.map (ev nm) ∧ e' = env' := by
  rw [clastCreateCallable, Option.map_eq_some_iff] at h
  obtain ⟨ss0, h0, rfl⟩ := h
  exact C35_statements nm n _ (oks_bounded nm _ (clast_ok hnm hc hl h0))

/-- A loop of the clast made with the option takes the values from `first` to `last`, computed on entry.  Missing:
strides whose offset is given by a constraint, and existentials defined by the iterator of the loop. -/
theorem C81_rounds_partial {cx : Ctx} (hsort : ∀ l, (cx.sort l).Perm l) (hn : NamesOK cx.nm) {icmp : Int → Int → Int}
    {loops : List Loop} (hE : Earlys true cx.nm 0 loops) {ss : List Stmt} (h : clastCreate cx icmp loops = some ss)
    {it : String} {lb ub : Option Expr} {k : Int} {b : List Stmt} (hi : In (.for_ it lb ub k b) ss) (hk : 0 < k) :
    ∃ ss' l u b', clastCreateCallable cx icmp loops = some ss' ∧ In (.for_ it (some l) (some u) k b') ss' ∧
      ∀ env t env', Exec [.for_ it (some l) (some u) k b'] env t env' ↔
        Rounds it k b' (count (first env lb ub) (last env lb ub) k) (first env lb ub)
          (Function.update env it (first env lb ub)) t env' := by
  have hs := in_steady hi (insertLoops_steady hsort hn loops 0 [] (fun _ => none) hE h).1
  obtain ⟨l, u, h1, h2, h3⟩ := forBound_some lb ub
  refine ⟨boundeds ss, l, u, boundeds b, by rw [clastCreateCallable, h]; rfl, ?_, rounds_bounded hs hk h1 h2 h3⟩
  have := in_bounded hi
  rw [bounded, h1] at this
  exact this

/-- A loop with only one of the bounds has `1000 / k + 1` rounds. -/
theorem C81_thousand (env : Env) (lb ub : Option Expr) (k : Int) (h : lb = none ↔ ub ≠ none) :
    count (first env lb ub) (last env lb ub) k = (1000 / k + 1).toNat := by
  cases lb <;> cases ub <;> simp at h <;> simp [first, last, count]

/-- A loop without bounds has `2000 / k + 1` rounds. -/
theorem C81_twothousand (env : Env) (k : Int) : count (first env none none) (last env none none) k = (2000 / k + 1).toNat := by
  simp [first, last, count]

/-! ## What is lost -/

/-- `i >= c`. -/
def upD (c : Int) : Dom := ⟨1, [], [⟨false, [1, 0], -c⟩]⟩
/-- The tree. -/
def upTree (c : Int) : List Loop :=
  [.mk ⟨0, [], []⟩ none false [] [.mk (upD c) none false [] [.mk ⟨1, [], []⟩ none false [7] []]]]
/-- The statement. -/
def upB : List Stmt := [.user 7 [.term 1 (.name "i")]]

theorem up_early (c : Int) : Earlys true exN 0 (upTree c) := by
  simp only [upTree, Earlys, Early]
  refine ⟨⟨fun h => by omega, nofun, ⟨⟨fun _ _ => ⟨?_, ?_, ?_⟩, nofun, ⟨⟨fun _ h => ?_, nofun, trivial⟩, trivial⟩⟩, trivial⟩⟩, trivial⟩
  · intro r hr
    simp only [upD, List.mem_singleton] at hr
    subst hr
    rfl
  · intro d hd
    simp [upD] at hd
  · intro _ _ r hr _ _ c h5 h6
    simp only [upD, List.mem_singleton] at hr
    subst hr
    exfalso
    match c with
    | 0 => exact h5 rfl
    | 1 => exact h6 rfl
    | c + 2 => exact h6 (by simp [Row.at])
  · simp at h

theorem up_rounds : ∀ {n a env t env'}, Rounds "i" 1 upB n a env t env' → ∀ e ∈ t, ∃ j, a ≤ j ∧ j < a + n ∧ e = ⟨7, [j]⟩
  | _, _, _, _, _, .done _ => nofun
  | n + 1, a, env, _, _, .round h h1 _ h2 => by
    intro e he
    rw [List.mem_append] at he
    rcases he with he | he
    · unfold upB at h1
      cases h1 with
      | user h1 =>
        cases h1
        simp only [List.mem_singleton, List.map_cons, List.map_nil, Expr.eval, h, one_mul] at he
        exact ⟨a, le_refl _, by omega, he⟩
    · obtain ⟨j, h3, h4, h5⟩ := up_rounds h2 e he
      exact ⟨j, by omega, by push_cast; omega, h5⟩

/-- The loop over `i >= 0` ends at 1000: the instance 1001 of its domain is executed by no run of the clast made with the
option. -/
theorem C81_lost : ∃ ss, clastCreateCallable exC gmpCmp (upTree 0) = some ss ∧ (∀ p, (upD 0).mem (fun _ => 1001) p) ∧
    ∀ env t env', Exec ss env t env' → ⟨7, [1001]⟩ ∉ t := by
  have h2 : clastCreateCallable exC gmpCmp (upTree 0) = some [.for_ "i" (some (.red .max [.cst 0]))
    (some (.red .sum [.cst 1000, .term 1 (.red .max [.cst 0])])) 1 upB] := rfl
  refine ⟨_, h2, ?_, ?_⟩
  · intro p r hr
    simp only [upD, List.mem_singleton] at hr
    subst hr
    simp [Row.holds, Row.val, dotFrom, Dom.pt, upD, divVals]
  · intro env t env' hx hm
    have hr := (rounds_bounded (lb := some (.red .max [.cst 0])) (ub := none) (b := upB) (by decide +kernel) (by decide) rfl
      (fun env => rfl) (fun env => by
        simp [last, Expr.eval, evalList, RedType.eval, Props.Expr.copy_eq]) env t env').1 hx
    rw [C81_thousand _ _ _ _ (by simp)] at hr
    obtain ⟨j, h3, h4, h5⟩ := up_rounds hr _ hm
    simp only [Event.mk.injEq, List.cons.injEq, and_true, true_and] at h5
    subst h5
    simp [first, Expr.eval, evalList, RedType.eval] at h4

/-! ## Fortran -/

/-- Fortran, with `-callable`. -/
def exCF : Cfg := { Props.FProg.exF with callable := true }

theorem no_exp_minus {ts : List CText.Tok} {e r} : ¬ FText.Prod (.minus :: ts) e r := by
  rintro ⟨h, _⟩
  cases h

/-- The loop over `i >= -5` is printed with the last value `1000+-5`, which is no Fortran: two operators may not follow each
other. -/
theorem C81_fortran : ∃ ss T, clastCreateCallable exC gmpCmp (upTree (-5)) = some ss ∧
    pprint exCF 0 (.root :: embs ss) = some T ∧ ∀ prog, ¬ FProg.Program T prog := by
  refine ⟨[.for_ "i" (some (.red .max [.cst (-5)])) (some (.red .sum [.cst 1000, .term 1 (.red .max [.cst (-5)])])) 1 upB],
    "DO i=-5, 1000+-5\n  S7(i)\nEND DO\n".toList, rfl, by decide +kernel, ?_⟩
  rintro prog ⟨ls, h1, h2⟩
  have : FProg.lines "DO i=-5, 1000+-5\n  S7(i)\nEND DO\n".toList = some [[.id "DO", .id "i", .asg, .minus, .num 5, .comma,
    .num 1000, .plus, .minus, .num 5], [.id "S7", .lpar, .id "i", .rpar], [.id "END", .id "DO"]] := by decide +kernel
  rw [this] at h1
  cases h1
  have first : ∀ {e r}, FText.Exp [.minus, .num 5, .comma, .num 1000, .plus, .minus, .num 5] e r →
      r = [.comma, .num 1000, .plus, .minus, .num 5] := by
    intro e r h
    cases h with
    | pos h _ => exact absurd h no_exp_minus
    | neg h h' =>
      obtain ⟨h, h3⟩ := h
      cases h
      cases h3
      cases h'
      rfl
  have last : ∀ {e r}, ¬ FText.Exp [.num 1000, .plus, .minus, .num 5] e r := by
    intro e r h
    cases h with
    | pos h h' =>
      obtain ⟨h, h3⟩ := h
      cases h
      cases h3
      cases h' with
      | stop h _ => exact h rfl
      | add h _ => exact no_exp_minus h
  cases h2 with
  | call h _ => cases h
  | ite h _ _ _ => cases h
  | loop h _ _ _ =>
    cases h with
    | unit _ h h' =>
      cases first h
      exact last h'
    | step _ h h' _ =>
      cases first h
      exact last h'

/-! ## Examples -/

-- The tree `i >= -5`: its loop has 1001 rounds, from -5 on.
example : ∃ ss' l u b', clastCreateCallable exC gmpCmp (upTree (-5)) = some ss' ∧
    In (.for_ "i" (some l) (some u) 1 b') ss' ∧ ∀ env t env', Exec [.for_ "i" (some l) (some u) 1 b'] env t env' ↔
      Rounds "i" 1 b' 1001 (-5) (Function.update env "i" (-5)) t env' :=
  C81_rounds_partial (cx := exC) (fun _ => .refl _) exN_ok (up_early (-5))
    (ss := [.for_ "i" (some (.red .max [.cst (-5)])) none 1 upB]) rfl .here (by decide)

example : text (printStmts exStmt 0 (boundeds [.for_ "i" (some (.red .max [.cst (-5)])) none 1 upB])) =
    "for (i=-5;i<=1000+-5;i++) {\n  S00000000(i);\n}\n".toList := by decide +kernel

example := C81_program exStmt exStmt_ok exC exC_print gmpCmp (upTree (-5)) (by decide) _ rfl 0

-- The tree of C25 with `N = 3`: the same instances with the option.
example (env : Env) (henv : env "N" = 3) : ∃ ss env', clastCreateCallable exC gmpCmp exTree = some ss ∧
    Exec ss env [⟨7, [0, 1]⟩, ⟨7, [1, 2]⟩] env' := by
  obtain ⟨env', h⟩ := C81_tree_partial exC (fun _ => .refl _) (fun _ => .refl _) exN_ok gmpCmp (fun _ => 3) (fun _ => 0) exTree _
    (exTree_wf _ true) (exTree_run _) _ rfl env (fun _ _ => henv)
  exact ⟨_, env', rfl, h⟩

end Verif.Props.Callable
