import Verif.Model.ClastGen
import Verif.Props.Bounds

/-!
# C51: which iterators are assigned

`-esp` and `-fsp` decide whether an iterator that is fixed by an equality gets an assignment of its own
in the generated code, or is only substituted into the statements.
-/

namespace Verif.Props.Equations
open Verif.IntOps Verif.Clast Verif.Bound Verif.ClastGen Verif.Props.Bounds Verif.Props.Expr

/-- The equality `r` gives the variable of column `col` a value that is a constant, or plus or minus
    one other variable: the simple equalities of the documentation (doc/cloog.texi, option `-esp`). -/
def Simple (n : Nat) (r : Row) (col : Nat) : Prop :=
  (r.at col = 1 ∨ r.at col = -1) ∧
    ((∀ c < n, c ≠ col → r.at c = 0) ∨
      (r.cst = 0 ∧ ∃ c < n, c ≠ col ∧ (r.at c = 1 ∨ r.at c = -1) ∧ ∀ c' < n, c' ≠ col → c' ≠ c → r.at c' = 0))

/-- What `eqTypeCols` does on a list of columns. -/
theorem eqTypeCols_spec (r : Row) (skip : Nat) : ∀ (cs : List Nat) (t : EqType), cs.Nodup →
    (eqTypeCols r skip cs t ≠ .exaffine ↔
      ((∀ c ∈ cs, c ≠ skip → r.at c = 0) ∧ t ≠ .exaffine) ∨
      (t = .none_ ∧ ∃ c ∈ cs, c ≠ skip ∧ (r.at c = 1 ∨ r.at c = -1) ∧
        ∀ c' ∈ cs, c' ≠ skip → c' ≠ c → r.at c' = 0)) ∧
    (eqTypeCols r skip cs t = .none_ ↔ (∀ c ∈ cs, c ≠ skip → r.at c = 0) ∧ t = .none_)
  | [], t, _ => by simp [eqTypeCols]
  | c :: cs, t, hn => by
    rw [List.nodup_cons] at hn
    have ih := fun t => eqTypeCols_spec r skip cs t hn.2
    by_cases h1 : c = skip ∨ r.at c = 0
    · have e : eqTypeCols r skip (c :: cs) t = eqTypeCols r skip cs t := by
        conv_lhs => unfold eqTypeCols
        rw [if_pos h1]
      rw [e, (ih t).1, (ih t).2]
      have hz : (∀ d ∈ c :: cs, d ≠ skip → r.at d = 0) ↔ (∀ d ∈ cs, d ≠ skip → r.at d = 0) := by
        simp only [List.forall_mem_cons]
        constructor
        · exact fun h => h.2
        · exact fun h => ⟨fun h' => h1.resolve_left h', h⟩
      rw [hz]
      refine ⟨or_congr Iff.rfl (and_congr Iff.rfl ?_), Iff.rfl⟩
      constructor
      · rintro ⟨d, hd, h2, h3, h4⟩
        refine ⟨d, List.mem_cons_of_mem _ hd, h2, h3, ?_⟩
        simp only [List.forall_mem_cons]
        exact ⟨fun h' _ => h1.resolve_left h', h4⟩
      · rintro ⟨d, hd, h2, h3, h4⟩
        simp only [List.forall_mem_cons] at h4
        rcases List.mem_cons.1 hd with rfl | hd
        · rcases h1 with h1 | h1
          · exact absurd h1 h2
          · omega
        · exact ⟨d, hd, h2, h3, h4.2⟩
    · push Not at h1
      have hnz : ¬ ∀ d ∈ c :: cs, d ≠ skip → r.at d = 0 := fun h => h1.2 (h c List.mem_cons_self h1.1)
      by_cases h2 : (r.at c ≠ 1 ∧ r.at c ≠ -1) ∨ t ≠ .none_
      · have e : eqTypeCols r skip (c :: cs) t = .exaffine := by
          conv_lhs => unfold eqTypeCols
          rw [if_neg (by rintro (h | h); exacts [h1.1 h, h1.2 h]), if_pos h2]
        rw [e]
        refine ⟨⟨fun h => absurd rfl h, ?_⟩, ⟨fun h => (by cases h), fun h => absurd h.1 hnz⟩⟩
        rintro (h | ⟨ht, d, hd, h3, h4, h5⟩)
        · exact absurd h.1 hnz
        · exfalso
          by_cases hdc : c = d
          · subst hdc
            rcases h2 with h2 | h2
            · omega
            · exact h2 ht
          · exact h1.2 (h5 c List.mem_cons_self h1.1 hdc)
      · push Not at h2
        have hc : r.at c = 1 ∨ r.at c = -1 := by
          by_cases h : r.at c = 1
          · exact .inl h
          · exact .inr (h2.1 h)
        have ht : t = .none_ := h2.2
        have e : eqTypeCols r skip (c :: cs) t = eqTypeCols r skip cs .pure := by
          conv_lhs => unfold eqTypeCols
          rw [if_neg (by rintro (h | h); exacts [h1.1 h, h1.2 h]), if_neg (by
            rintro (h | h)
            · omega
            · exact h ht)]
        rw [e, (ih .pure).1, (ih .pure).2]
        refine ⟨⟨?_, ?_⟩, ⟨fun h => (by cases h.2), fun h => absurd h.1 hnz⟩⟩
        · rintro (h | ⟨h, _⟩)
          · refine .inr ⟨ht, c, List.mem_cons_self, h1.1, hc, ?_⟩
            simp only [List.forall_mem_cons]
            exact ⟨fun _ h => absurd rfl h, fun c' hc' hs _ => h.1 c' hc' hs⟩
          · cases h
        · rintro (h | ⟨_, d, hd, h3, h4, h5⟩)
          · exact absurd h.1 hnz
          · left
            refine ⟨?_, by decide⟩
            have hdc : d = c := by
              by_contra hne
              exact h1.2 (h5 c List.mem_cons_self h1.1 (Ne.symm hne))
            subst hdc
            intro c' hc' hs
            exact h5 c' (List.mem_cons_of_mem _ hc') hs (fun h => hn.1 (h ▸ hc'))

theorem eqTypeCols_cons (r : Row) (skip c : Nat) (cs : List Nat) (t : EqType) :
    eqTypeCols r skip (c :: cs) t = if c = skip ∨ r.at c = 0 then eqTypeCols r skip cs t
      else if (r.at c ≠ 1 ∧ r.at c ≠ -1) ∨ t ≠ .none_ then .exaffine else eqTypeCols r skip cs .pure := rfl

theorem eqTypeCols_exaffine (r : Row) (skip : Nat) : ∀ bs, eqTypeCols r skip bs .exaffine = .exaffine
  | [] => rfl
  | b :: bs => by
    rw [eqTypeCols_cons, eqTypeCols_exaffine r skip bs]
    split_ifs with h3 h4
    · rfl
    · rfl
    · exact absurd (.inr (by decide)) h4

theorem eqTypeCols_append (r : Row) (skip : Nat) : ∀ (as bs : List Nat) (t : EqType),
    eqTypeCols r skip bs (eqTypeCols r skip as t) = eqTypeCols r skip (as ++ bs) t
  | [], bs, t => by simp [eqTypeCols]
  | a :: as, bs, t => by
    rw [List.cons_append, eqTypeCols_cons, eqTypeCols_cons]
    split_ifs with h1 h2
    · exact eqTypeCols_append r skip as bs t
    · exact eqTypeCols_exaffine r skip bs
    · exact eqTypeCols_append r skip as bs .pure

/-- The complicated equalities are those that are not simple. -/
theorem eqType_exaffine (D : Dom) (nPar : Nat) (r : Row) (col : Nat) :
    eqType D nPar r col = .exaffine ↔ ¬ Simple (D.nIter + D.divs.length + nPar) r col := by
  set nd := D.divs.length with hnd
  set cols := (List.range nPar).map (· + (D.nIter + nd)) ++ List.range D.nIter ++
    (List.range nd).map (· + D.nIter) with hcols
  have hmem : ∀ c, c ∈ cols ↔ c < D.nIter + nd + nPar := by
    intro c
    simp only [hcols, List.mem_append, List.mem_map, List.mem_range]
    constructor
    · rintro ((⟨a, ha, rfl⟩ | h) | ⟨a, ha, rfl⟩) <;> omega
    · intro h
      by_cases h1 : c < D.nIter
      · exact .inl (.inr h1)
      · by_cases h2 : c < D.nIter + nd
        · exact .inr ⟨c - D.nIter, by omega, by omega⟩
        · exact .inl (.inl ⟨c - (D.nIter + nd), by omega, by omega⟩)
  have hnod : cols.Nodup := by
    rw [hcols, List.nodup_append, List.nodup_append]
    refine ⟨⟨?_, List.nodup_range, ?_⟩, ?_, ?_⟩
    · exact List.pairwise_map.2 (List.nodup_range.imp (fun h h' => h (by simpa using h')))
    · intro a ha b hb
      simp only [List.mem_map, List.mem_range] at ha hb
      obtain ⟨x, _, rfl⟩ := ha
      omega
    · exact List.pairwise_map.2 (List.nodup_range.imp (fun h h' => h (by simpa using h')))
    · intro a ha b hb
      simp only [List.mem_append, List.mem_map, List.mem_range] at ha hb
      obtain ⟨y, _, rfl⟩ := hb
      rcases ha with ⟨x, _, rfl⟩ | ha <;> omega
  set t0 : EqType := if r.cst ≠ 0 then .constant else .none_ with ht0
  set t1 : EqType := if r.at col ≠ 1 ∧ r.at col ≠ -1 then .exaffine else t0 with ht1
  have hfull : eqType D nPar r col = .exaffine ↔ eqTypeCols r col cols t1 = .exaffine := by
    rw [hcols, ← eqTypeCols_append, ← eqTypeCols_append]
    unfold eqType
    dsimp only
    rw [← ht0, ← ht1, ← hnd]
    split_ifs with h
    · rw [h]; simp
    · rfl
  rw [hfull, ← not_iff_not, not_not]
  rw [show (¬ eqTypeCols r col cols t1 = .exaffine) = (eqTypeCols r col cols t1 ≠ .exaffine) from rfl,
    (eqTypeCols_spec r col cols t1 hnod).1]
  simp only [hmem]
  unfold Simple
  by_cases hu : r.at col ≠ 1 ∧ r.at col ≠ -1
  · have e1 : t1 = .exaffine := by rw [ht1, if_pos hu]
    rw [e1]
    constructor
    · rintro (⟨_, h⟩ | ⟨h, _⟩)
      · exact absurd rfl h
      · cases h
    · rintro ⟨h, _⟩; omega
  · have e1 : t1 = t0 := by rw [ht1, if_neg hu]
    rw [e1]
    have hu' : r.at col = 1 ∨ r.at col = -1 := by omega
    have ht0' : t0 ≠ .exaffine := by rw [ht0]; split_ifs <;> decide
    have ht0n : t0 = .none_ ↔ r.cst = 0 := by
      rw [ht0]
      by_cases h : r.cst = 0 <;> simp [h]
    rw [ht0n]
    constructor
    · rintro (⟨h, _⟩ | h)
      · exact ⟨hu', .inl h⟩
      · exact ⟨hu', .inr h⟩
    · rintro ⟨_, h | h⟩
      · exact .inl ⟨h, ht0'⟩
      · exact .inr h

/-- **C51.**  One-time loops being simplified, the iterator of level `L` fixed by the equality `r` is
    assigned exactly if its level is below `-fsp`, or the equality is not simple and `-esp` is off.  The
    assignment, if there is one, is all that is put between the modulo guard and the contents, and the
    equality is recorded for the statements in both cases. -/
theorem C51_assignment (cx : Ctx) (D : Dom) (L : Nat) (eqs : List (Nat × Row))
    (strides : Nat → Option Stride) (r : Row) (o : ModOut) (s : Step) (hotl : cx.otl = true)
    (hm : modGuard cx D eqs strides L r none (L - 1) = some o) (ho : o ≠ .unsat)
    (h : insertEquation cx D L eqs strides r none = some s) :
    s.go = true ∧ s.rec_ = some r ∧
    (s.assigned = true ↔ L < cx.fsp ∨
      (¬ Simple (D.nIter + D.divs.length + cx.nm.nPar) r (L - 1) ∧ cx.esp = false)) ∧
    (s.assigned = false → ∀ body, s.wrap body = o.wrap body) ∧
    (s.assigned = true → ∃ e, boundFromConstraint r (L - 1) (D.vars cx.nm) = some e ∧ ∀ body,
      s.wrap body = o.wrap (if cx.block then [.block (.ass (cx.nm.at_ (L - 1)) e :: body)]
        else .ass (cx.nm.at_ (L - 1)) e :: body)) := by
  unfold insertEquation at h
  dsimp only at h
  rw [hotl, hm] at h
  simp only [Bool.not_true, Bool.false_eq_true, if_false, Option.bind_eq_bind, Option.bind_some] at h
  rw [← eqType_exaffine]
  simp only [Option.bind_eq_some_iff] at h
  obtain ⟨e, he, h⟩ := h
  have hal : equalAllow cx L (eqType D cx.nm.nPar r (L - 1)) = false ↔ L < cx.fsp ∨
      (eqType D cx.nm.nPar r (L - 1) = .exaffine ∧ cx.esp = false) := by
    unfold equalAllow
    split_ifs with h1 h2 <;> simp_all
  rw [← hal]
  cases hb : equalAllow cx L (eqType D cx.nm.nPar r (L - 1)) with
  | true =>
    rw [hb] at h
    simp only [if_true, Option.some.injEq] at h
    subst h
    simp
  | false =>
    rw [hb] at h
    simp only [Bool.false_eq_true, if_false, Option.some.injEq] at h
    subst h
    refine ⟨rfl, rfl, by simp, by simp, fun _ => ⟨e, he, fun body => ?_⟩⟩
    simp [assign]

/-- With `-fsp 2` the level 1 iterator of `i - n = 0` is assigned; at `-fsp 1` it is not; `2 i - n = 0`
    or `i - n - 3 = 0` are assigned only with `-esp 0`. -/
example : Simple 2 ⟨true, [1, -1], 0⟩ 0 ∧ ¬ Simple 2 ⟨true, [1, -1], -3⟩ 0 ∧
    ¬ Simple 2 ⟨true, [2, -1], 0⟩ 0 := by
  refine ⟨⟨.inl rfl, .inr ⟨rfl, 1, by decide, by decide, .inr rfl, by decide⟩⟩, ?_, ?_⟩
  · rintro ⟨_, h | ⟨h, _⟩⟩
    · exact absurd (h 1 (by decide) (by decide)) (by decide)
    · exact absurd h (by decide)
  · rintro ⟨h, _⟩; exact absurd h (by decide)

/-- With the isl library a loop whose two bounds are the same expression is not collapsed into an
    assignment: the assertion in `cloog_equal_add` fails.  For all constraints `r` with unit coefficient:
    `r` and its negation as the only bounds of the iterator stop the program when one-time loops are to
    be simplified; without that option a loop is written. -/
theorem C10_equal_bounds_abort (cx : Ctx) (icmp : Int → Int → Int) (hi : ∀ a, icmp a a = 0)
    (hs : ∀ l, (cx.sort l).Perm l) (coef : List Int) (cst : Int) (L : Nat) (otl : Bool)
    (vars : Nat → Expr) (h1 : coef.getD (L - 1) 0 = 1) :
    let rows : List Row := [⟨false, coef, cst⟩, ⟨false, coef.map (- ·), -cst⟩]
    (cx.otl = true → insertFor cx icmp rows L otl none vars = none) ∧
    (cx.otl = false → otl = false → ∃ e1 e2 : Expr, ∀ s, insertFor cx icmp rows L otl none vars = some s →
      ∀ body, s.wrap body = [.for_ (cx.nm.at_ (L - 1)) (some e1) (some e2) 1 body]) := by
  intro rows
  set col := L - 1 with hcol
  have h2 : (coef.map (- ·)).getD col 0 = -1 := by
    have : coef[col]? = some 1 := by
      rw [List.getD_eq_getElem?_getD] at h1
      cases h : coef[col]? with
      | none => rw [h] at h1; simp at h1
      | some v => rw [h] at h1; simpa using h1
    rw [List.getD_eq_getElem?_getD, List.getElem?_map, this]; rfl
  have hterms : ∀ (cs : List Int) (i : Nat), boundTerms true col vars cs i =
      boundTerms false col vars (cs.map (- ·)) i := by
    intro cs
    induction cs with
    | nil => intro i; rfl
    | cons c cs ih =>
      intro i
      rw [List.map_cons]
      unfold boundTerms
      rw [ih]
      have : sgn (-c) = 0 ↔ sgn c = 0 := by rw [sgn_eq_zero, sgn_eq_zero]; omega
      simp only [this]
      simp
  have hb : boundFromConstraint ⟨false, coef, cst⟩ col vars =
      boundFromConstraint ⟨false, coef.map (- ·), -cst⟩ col vars := by
    unfold boundFromConstraint
    simp only [Row.at, h1, h2, hterms]
    simp [sgn, hterms]
  obtain ⟨e, he⟩ : ∃ e, boundFromConstraint ⟨false, coef, cst⟩ col vars = some e := by
    apply bound_exists
    simp only [Row.at, h1]; decide
  have hl1 : loopBound cx rows col true none vars = some (.red .max [e]) := by
    unfold loopBound loopBounds
    have : rows.filter (fun r => validBound r col true none false) = [⟨false, coef, cst⟩] := by
      simp only [rows, validBound, Row.isLower, Row.at, h1, h2, List.filter]
      rfl
    rw [this]
    simp only [List.filterMap_cons, List.filterMap_nil, loopBoundElt, he, List.isEmpty_cons,
      Bool.false_eq_true, if_false, if_true]
    rw [List.perm_singleton.1 (hs [e])]
  have hl2 : loopBound cx rows col false none vars = some (.red .min [e]) := by
    unfold loopBound loopBounds
    have : rows.filter (fun r => validBound r col false none false) =
        [⟨false, coef.map (- ·), -cst⟩] := by
      simp only [rows, validBound, Row.isUpper, Row.at, h1, h2, List.filter]
      rfl
    rw [this]
    rw [hb] at he
    simp only [List.filterMap_cons, List.filterMap_nil, loopBoundElt, he, List.isEmpty_cons,
      Bool.false_eq_true, if_false]
    rw [List.perm_singleton.1 (hs [e])]
  have hnb : isBiggerConstant (some (.red .max [e])) (some (.red .min [e])) = false := by
    by_contra h
    have := C10_dropped_loop_empty _ _ (by simpa using h)
    simp only [Option.some.injEq, exists_eq_left', Expr.eval, evalList, redEval_single] at this
    obtain ⟨l, u, rfl, rfl, h'⟩ := this
    have := h' (fun _ => 0) (e.eval (fun _ => 0))
    simp [Expr.eval, evalList, redEval_single] at this
  constructor
  · intro ho
    unfold insertFor
    dsimp only
    rw [← hcol, hl1, hl2, hnb, ho]
    have : exprEqual icmp (some (.red .max [e])) (some (.red .min [e])) = true := by
      simp [exprEqual, cmpOpt, exprCmp, cmpList, cmp_refl hi]
    simp [this]
  · intro ho hoo
    refine ⟨.red .max [e], .red .min [e], fun s h body => ?_⟩
    unfold insertFor at h
    dsimp only at h
    rw [← hcol, hl1, hl2, hnb, ho, hoo] at h
    simp only [Bool.false_eq_true, if_false, Bool.and_false, Bool.false_and, Option.some.injEq] at h
    subst h
    rfl

/-- `i >= n` and `i <= n`. -/
example : ([1, -1] : List Int).getD (1 - 1) 0 = 1 := by decide

end Verif.Props.Equations
