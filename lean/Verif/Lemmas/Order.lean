import Verif.Model.GuardSort
import Verif.Props.Bounds
import Verif.Lemmas.ClastNames

/-!
# Constraints in another order
-/

namespace Verif.Order
open Verif.Clast Verif.ClastGen Verif.GuardSort Verif.IntOps Verif.Bound
open Verif.Props.Expr

/-! ## Sorting -/

/-- What the C standard asks of a comparison function given to `qsort`, on the elements of a list. -/
structure Consistent {α : Type} (cmp : α → α → Int) (l : List α) : Prop where
  refl : ∀ a ∈ l, cmp a a = 0
  swap : ∀ a ∈ l, ∀ b ∈ l, cmp a b < 0 ↔ cmp b a > 0
  trans : ∀ a ∈ l, ∀ b ∈ l, ∀ c ∈ l, cmp a b ≤ 0 → cmp b c ≤ 0 → cmp a c ≤ 0

/-- What the C standard says of `qsort`: the result is a permutation, in order if the comparison is consistent. -/
def Sorts {α : Type} (cmp : α → α → Int) (sort : List α → List α) : Prop :=
  ∀ l, (sort l).Perm l ∧ (Consistent cmp l → (sort l).Pairwise (fun a b => cmp a b ≤ 0))

theorem Consistent.perm {α : Type} {cmp : α → α → Int} {l l' : List α} (h : l.Perm l') (hc : Consistent cmp l) :
    Consistent cmp l' :=
  ⟨fun a ha => hc.refl a (h.mem_iff.2 ha), fun a ha b hb => hc.swap a (h.mem_iff.2 ha) b (h.mem_iff.2 hb),
    fun a ha b hb c hc' => hc.trans a (h.mem_iff.2 ha) b (h.mem_iff.2 hb) c (h.mem_iff.2 hc')⟩

/-- Two sorts give the same if no two different elements compare as equal. -/
theorem sorts_eq {α : Type} {cmp : α → α → Int} {s s' : List α → List α} (hs : Sorts cmp s) (hs' : Sorts cmp s')
    {l l' : List α} (h : l.Perm l') (hc : Consistent cmp l) (hz : ∀ a ∈ l, ∀ b ∈ l, cmp a b = 0 → a = b) : s l = s' l' := by
  refine List.Perm.eq_of_pairwise (le := fun a b => cmp a b ≤ 0) ?_ ((hs l).2 hc) ((hs' l').2 (hc.perm h))
    (((hs l).1.trans h).trans (hs' l').1.symm)
  intro a b ha hb h1 h2
  have ha' := (hs l).1.mem_iff.1 ha
  have hb' := h.mem_iff.2 ((hs' l').1.mem_iff.1 hb)
  refine hz a ha' b hb' ?_
  have := hc.swap b hb' a ha'
  have := hc.swap a ha' b hb'
  omega

/-! ## Expressions -/

variable {icmp : Int → Int → Int}

theorem sum_consistent (h : ICmpExact icmp) {l : List Expr} (hl : ∀ e ∈ l, SumOnly e) : Consistent (exprCmp icmp) l :=
  have hp := C09_preorder_partial h
  ⟨fun a ha => hp.refl a (hl a ha), fun a ha b hb => hp.antisymm a b (hl a ha) (hl b hb),
    fun a ha b hb c hc => hp.trans a b c (hl a ha) (hl b hb) (hl c hc)⟩

theorem sum_sorts_eq (h : ICmpExact icmp) {s s' : List Expr → List Expr} (hs : Sorts (exprCmp icmp) s)
    (hs' : Sorts (exprCmp icmp) s') {l l' : List Expr} (hp : l.Perm l') (hl : ∀ e ∈ l, SumOnly e) : s l = s' l' :=
  sorts_eq hs hs' hp (sum_consistent h hl) (fun a ha b hb => cmp_zero_eq h a b (hl a ha) (hl b hb))

theorem sumList_iff : ∀ {l : List Expr}, SumOnlyList l ↔ ∀ e ∈ l, SumOnly e
  | [] => by simp [SumOnlyList]
  | e :: es => by simp [SumOnlyList, sumList_iff (l := es)]

theorem divTerms_sum {vars : Nat → Expr} (hv : ∀ i, SumOnly (vars i)) (den : Int) : ∀ (cs : List Int) (i : Nat),
    ∀ e ∈ divTerms vars den cs i, SumOnly e
  | [], _, e, he => by simp [divTerms] at he
  | c :: cs, i, e, he => by
    rw [divTerms] at he
    split at he
    · exact divTerms_sum hv den cs (i + 1) e he
    · rcases List.mem_cons.1 he with rfl | he
      · rw [SumOnly]; exact hv i
      · exact divTerms_sum hv den cs (i + 1) e he

theorem divExpr_sum {vars : Nat → Expr} (hv : ∀ i, SumOnly (vars i)) (d : DivDef) : SumOnly (divExpr vars d) := by
  rw [divExpr, SumOnly, SumOnly]
  refine ⟨rfl, sumList_iff.2 fun e he => ?_⟩
  rw [List.mem_append] at he
  rcases he with he | he
  · exact divTerms_sum hv _ _ _ e he
  · split at he
    · simp at he
    · simp only [List.mem_singleton] at he
      subst he
      trivial

theorem colExpr_sum {nm : Names} {n k : Nat} {acc : List Expr} (h : ∀ e ∈ acc, SumOnly e) (c : Nat) :
    SumOnly (colExpr nm n k acc c) := by
  unfold colExpr
  split
  · trivial
  · split
    · rw [List.getD_eq_getElem?_getD]
      cases hx : acc[c - n]? with
      | none => trivial
      | some e => exact h e (List.mem_of_getElem? hx)
    · trivial

theorem divExprs_sum {nm : Names} {n k : Nat} : ∀ (ds : List DivDef) (acc : List Expr), (∀ e ∈ acc, SumOnly e) →
    ∀ e ∈ divExprs nm n k ds acc, SumOnly e
  | [], acc, h, e, he => h e he
  | d :: ds, acc, h, e, he => by
    rw [divExprs] at he
    refine divExprs_sum ds _ (fun e he => ?_) e he
    rcases List.mem_append.1 he with he | he
    · exact h e he
    · rw [List.mem_singleton] at he
      subst he
      exact divExpr_sum (colExpr_sum h) d

theorem vars_sum (D : Dom) (nm : Names) (c : Nat) : SumOnly (D.vars nm c) :=
  colExpr_sum (divExprs_sum D.divs [] (by simp)) c

/-! ## Bounds -/

theorem updLower_sum {s : CStride} {e : Expr} (h : SumOnly e) : SumOnly (updLower s e) := by
  unfold updLower
  split <;> first | trivial | exact h

theorem strideVars_sum {vars : Nat → Expr} (hv : ∀ i, SumOnly (vars i)) (nb : Nat) (q : Option DivDef) (c : Nat) :
    SumOnly (strideVars nb vars q c) := by
  cases q with
  | none => exact hv c
  | some d =>
    rw [strideVars]
    unfold insertCol
    split
    · exact hv _
    · split
      · exact divExpr_sum hv d
      · exact hv _

theorem boundElt_sum {cx : Ctx} {vars : Nat → Expr} (hv : ∀ i, SumOnly (vars i)) {col : Nat} {max : Bool} {st : Option Stride}
    {r : Row} {e : Expr} (h : loopBoundElt cx col max st vars r = some e) : SumOnly e := by
  unfold loopBoundElt at h
  split at h
  · split at h
    · unfold strideBound at h
      exact Props.Bounds.bound_sumOnly _ _ _ (strideVars_sum hv _ _) e h
    · rw [Option.map_eq_some_iff] at h
      obtain ⟨e', h1, rfl⟩ := h
      exact updLower_sum (Props.Bounds.bound_sumOnly _ _ _ hv e' h1)
  · exact Props.Bounds.bound_sumOnly _ _ _ hv e h

/-- The same surroundings with other sorting functions. -/
def Ctx.with (cx : Ctx) (s : List Expr → List Expr) (g : List Eqn → List Eqn) : Ctx := { cx with sort := s, gsort := g }

theorem loopBound_perm (h : ICmpExact icmp) {cx : Ctx} (hs : Sorts (exprCmp icmp) cx.sort) {s g}
    (hs' : Sorts (exprCmp icmp) s) {rows rows' : List Row} (hp : rows.Perm rows') {vars : Nat → Expr}
    (hv : ∀ i, SumOnly (vars i)) (col : Nat) (max : Bool) (st : Option Stride) :
    loopBound cx rows col max st vars = loopBound (Ctx.with cx s g) rows' col max st vars := by
  have hb : (loopBounds cx rows col max st vars).Perm (loopBounds (Ctx.with cx s g) rows' col max st vars) := by
    unfold loopBounds
    exact (hp.filter _).filterMap _
  have hl : ∀ e ∈ loopBounds cx rows col max st vars, SumOnly e := by
    intro e he
    unfold loopBounds at he
    rw [List.mem_filterMap] at he
    obtain ⟨r, -, hr⟩ := he
    exact boundElt_sum hv hr
  unfold loopBound
  dsimp only
  have he : (loopBounds cx rows col max st vars).isEmpty = (loopBounds (Ctx.with cx s g) rows' col max st vars).isEmpty := by
    rw [Bool.eq_iff_iff, List.isEmpty_iff, List.isEmpty_iff]
    exact ⟨fun h => by rw [h] at hb; exact List.Perm.nil_eq hb |>.symm, fun h => by rw [h] at hb; exact hb.eq_nil⟩
  rw [← he, sum_sorts_eq h hs (s' := (Ctx.with cx s g).sort) hs' hb hl]

theorem adjust_sum {lower : Bool} {st : Option CStride} {e : Expr} (h : SumOnly e) : SumOnly (adjustBound lower st e) := by
  unfold adjustBound
  split <;> first | exact updLower_sum h | exact h

theorem minmax_perm (h : ICmpExact icmp) {s s' : List Expr → List Expr} (hs : Sorts (exprCmp icmp) s)
    (hs' : Sorts (exprCmp icmp) s') {rows rows' : List Row} (hp : rows.Perm rows') {vars : Nat → Expr}
    (hv : ∀ i, SumOnly (vars i)) (col : Nat) (max : Bool) (gd : Option Nat) (lb ne : Bool) (st : Option CStride) :
    minmax s rows col max gd lb ne st vars = minmax s' rows' col max gd lb ne st vars := by
  have hb : (collectBounds rows col max gd lb ne st vars).Perm (collectBounds rows' col max gd lb ne st vars) := by
    unfold collectBounds
    exact (hp.filter _).filterMap _
  have hl : ∀ e ∈ collectBounds rows col max gd lb ne st vars, SumOnly e := by
    intro e he
    unfold collectBounds at he
    rw [List.mem_filterMap] at he
    obtain ⟨r, -, hr⟩ := he
    rw [Option.map_eq_some_iff] at hr
    obtain ⟨e', h1, rfl⟩ := hr
    exact adjust_sum (Props.Bounds.bound_sumOnly _ _ _ hv e' h1)
  unfold minmax
  dsimp only
  have he : (collectBounds rows col max gd lb ne st vars).isEmpty = (collectBounds rows' col max gd lb ne st vars).isEmpty := by
    rw [Bool.eq_iff_iff, List.isEmpty_iff, List.isEmpty_iff]
    exact ⟨fun h => by rw [h] at hb; exact List.Perm.nil_eq hb |>.symm, fun h => by rw [h] at hb; exact hb.eq_nil⟩
  rw [← he, sum_sorts_eq h hs hs' hb hl]

/-! ## Conditions -/

/-- Conditions that can be sorted: left-hand sides with sums only; among three conditions with one left-hand side, the
right-hand sides have sums only or two of the conditions are the same; two different conditions with the same left-hand
side have right-hand sides with sums only or different signs. -/
structure Tame (l : List Eqn) : Prop where
  lhs : ∀ a ∈ l, SumOnly a.lhs
  three : ∀ a ∈ l, ∀ b ∈ l, ∀ c ∈ l, a.lhs = b.lhs → b.lhs = c.lhs →
    (SumOnly a.rhs ∧ SumOnly b.rhs ∧ SumOnly c.rhs) ∨ a = b ∨ b = c ∨ a = c
  two : ∀ a ∈ l, ∀ b ∈ l, a.lhs = b.lhs → (SumOnly a.rhs ∧ SumOnly b.rhs) ∨ a = b ∨ a.sign ≠ b.sign

theorem eqnCmp_self (h : ICmpExact icmp) (a : Eqn) : eqnCmp icmp a a = 0 := by
  have := fun e => cmp_refl (icmp := icmp) (fun x => (h x x).2.1.mpr rfl) e
  simp [eqnCmp, this]

theorem eqnCmp_swap (h : ICmpExact icmp) (a b : Eqn) : eqnCmp icmp a b < 0 ↔ eqnCmp icmp b a > 0 := by
  unfold eqnCmp
  dsimp only
  have h1 := cmp_swap h a.lhs b.lhs
  have h2 := cmp_swap h a.rhs b.rhs
  have h3 := cmp_swap h b.lhs a.lhs
  have h4 := cmp_swap h b.rhs a.rhs
  split <;> split <;> (try split) <;> (try split) <;> omega

theorem eqnCmp_lhs {a b : Eqn} (h : exprCmp icmp a.lhs b.lhs ≠ 0) : eqnCmp icmp a b = exprCmp icmp a.lhs b.lhs := by
  unfold eqnCmp
  exact if_pos h

theorem eqnCmp_rhs (hi : ICmpExact icmp) {a b : Eqn} (h : a.lhs = b.lhs) :
    eqnCmp icmp a b = if exprCmp icmp a.rhs b.rhs ≠ 0 then exprCmp icmp a.rhs b.rhs else a.sign - b.sign := by
  unfold eqnCmp
  dsimp only
  rw [h, cmp_refl (fun x => (hi x x).2.1.mpr rfl)]
  simp

theorem Tame.zero (h : ICmpExact icmp) {l : List Eqn} (ht : Tame l) : ∀ a ∈ l, ∀ b ∈ l, eqnCmp icmp a b = 0 → a = b := by
  intro a ha b hb h0
  by_cases hl : exprCmp icmp a.lhs b.lhs = 0
  · have hl := cmp_zero_eq h _ _ (ht.lhs a ha) (ht.lhs b hb) hl
    rw [eqnCmp_rhs h hl] at h0
    split at h0
    · contradiction
    · rename_i hr
      push Not at hr
      rcases ht.two a ha b hb hl with ⟨h1, h2⟩ | rfl | hs
      · have := cmp_zero_eq h _ _ h1 h2 hr
        cases a; cases b
        simp only [Eqn.mk.injEq] at *
        exact ⟨hl, this, by omega⟩
      · rfl
      · omega
  · rw [eqnCmp_lhs hl] at h0
    contradiction

theorem Tame.consistent (h : ICmpExact icmp) {l : List Eqn} (ht : Tame l) : Consistent (eqnCmp icmp) l := by
  refine ⟨fun a _ => eqnCmp_self h a, fun a _ b _ => eqnCmp_swap h a b, fun a ha b hb c hc h1 h2 => ?_⟩
  have hp := C09_preorder_partial h
  have sa := ht.lhs a ha
  have sb := ht.lhs b hb
  have sc := ht.lhs c hc
  by_cases e1 : exprCmp icmp a.lhs b.lhs = 0
  · have e1 := cmp_zero_eq h _ _ sa sb e1
    by_cases e2 : exprCmp icmp b.lhs c.lhs = 0
    · have e2 := cmp_zero_eq h _ _ sb sc e2
      rcases ht.three a ha b hb c hc e1 e2 with ⟨ra, rb, rc⟩ | rfl | rfl | rfl
      · rw [eqnCmp_rhs h e1] at h1
        rw [eqnCmp_rhs h e2] at h2
        rw [eqnCmp_rhs h (e1.trans e2)]
        by_cases f1 : exprCmp icmp a.rhs b.rhs = 0
        · have f1' := cmp_zero_eq h _ _ ra rb f1
          rw [if_neg (by simpa using f1)] at h1
          rw [← f1'] at h2
          split <;> split at h2 <;> first | omega | contradiction
        · rw [if_pos f1] at h1
          by_cases f2 : exprCmp icmp b.rhs c.rhs = 0
          · have f2' := cmp_zero_eq h _ _ rb rc f2
            rw [← f2', if_pos f1]
            exact h1
          · rw [if_pos f2] at h2
            have h3 := hp.trans _ _ _ ra rb rc h1 h2
            have h4 : exprCmp icmp a.rhs c.rhs ≠ 0 := by
              intro h4
              have h4 := cmp_zero_eq h _ _ ra rc h4
              rw [← h4] at h2 f2
              have := cmp_swap h a.rhs b.rhs
              omega
            rw [if_pos h4]
            exact h3
      · exact h2
      · exact h1
      · rw [eqnCmp_self h]
    · rw [eqnCmp_lhs e2] at h2
      rw [← e1] at e2 h2
      rw [eqnCmp_lhs e2]
      exact h2
  · rw [eqnCmp_lhs e1] at h1
    by_cases e2 : exprCmp icmp b.lhs c.lhs = 0
    · have e2 := cmp_zero_eq h _ _ sb sc e2
      rw [e2] at e1 h1
      rw [eqnCmp_lhs e1]
      exact h1
    · rw [eqnCmp_lhs e2] at h2
      have h3 := hp.trans _ _ _ sa sb sc h1 h2
      have h4 : exprCmp icmp a.lhs c.lhs ≠ 0 := by
        intro h4
        have h4 := cmp_zero_eq h _ _ sa sc h4
        rw [← h4] at h2 e2
        have := cmp_swap h a.lhs b.lhs
        omega
      rw [eqnCmp_lhs h4]
      exact h3

/-! ## The conditions of a guard -/

/-- A constraint looked at for column `i`. -/
def elig (D : Dom) (L i : Nat) (r : Row) : Bool :=
  r.involves i && !(List.range i).any (fun k => r.involves k) && !Row.involvesOpt r (guardCol D L)

/-- The condition for the maximum or the minimum. -/
def extremeEqn (sort : List Expr → List Expr) (D : Dom) (nm : Names) (L i : Nat) (copy : List Row) (max : Bool) : List Eqn :=
  ((minmax sort copy i max (guardCol D L) false true none (D.vars nm)).map
    (fun rhs => (⟨.term 1 (D.vars nm i), rhs, if max then 1 else -1⟩ : Eqn))).toList

theorem guardRows_count (cx : Ctx) (D : Dom) (L i : Nat) (copy : List Row) (q : Eqn) : ∀ (rs : List Row) (mn mx : Bool),
    (guardRows cx D L copy i rs mn mx).count q =
      ((rs.filter (fun r => elig D L i r && decide (L = 0 ∨ r.isEq = true))).filterMap
        (fun r => individualEqn r i (D.vars cx.nm))).count q +
      (if !mx && rs.any (fun r => elig D L i r && !decide (L = 0 ∨ r.isEq = true) && r.isLower i) then
        (extremeEqn cx.sort D cx.nm L i copy true).count q else 0) +
      (if !mn && rs.any (fun r => elig D L i r && !decide (L = 0 ∨ r.isEq = true) && r.isUpper i) then
        (extremeEqn cx.sort D cx.nm L i copy false).count q else 0)
  | [], mn, mx => by simp [guardRows]
  | r :: rs, mn, mx => by
    have ih := guardRows_count cx D L i copy q rs
    rw [guardRows]
    by_cases h1 : r.involves i = true
    · rw [if_neg (by simp [h1])]
      by_cases h2 : (List.range i).any (fun k => r.involves k) = true
      · rw [if_pos h2, ih]
        have : elig D L i r = false := by unfold elig; rw [h2]; simp
        simp [List.filter_cons, this]
      · rw [if_neg h2]
        by_cases h3 : Row.involvesOpt r (guardCol D L) = true
        · rw [if_pos h3, ih]
          have : elig D L i r = false := by unfold elig; rw [h3]; simp
          simp [List.filter_cons, this]
        · rw [if_neg h3]
          have he : elig D L i r = true := by
            unfold elig
            rw [Bool.not_eq_true] at h2 h3
            rw [h1, h2, h3]; rfl
          by_cases h4 : L = 0 ∨ r.isEq = true
          · rw [if_pos h4, List.count_append, ih]
            rw [List.filter_cons, he, decide_eq_true h4]
            simp only [Bool.and_self, if_true, List.filterMap_cons, List.any_cons, he, h4, decide_true, Bool.not_true,
              Bool.and_false, Bool.false_and, Bool.false_or]
            cases individualEqn r i (D.vars cx.nm) with
            | none => simp
            | some e => simp [List.count_cons]; omega
          · rw [if_neg h4]
            have h0 : r.at i ≠ 0 := by simpa [Row.involves] using h1
            rw [List.filter_cons, he, decide_eq_false h4]
            simp only [Bool.and_false, Bool.false_eq_true, if_false, List.any_cons, he, h4, decide_false, Bool.not_false,
              Bool.and_true, Bool.true_and]
            by_cases h5 : r.isLower i = true
            · have h6 : r.isUpper i = false := by
                simp only [Row.isLower, Row.isUpper, decide_eq_true_eq, decide_eq_false_iff_not] at *
                omega
              rw [h5, h6]
              cases mx with
              | true => simp [ih]
              | false =>
                simp only [Bool.false_and, Bool.and_false, Bool.false_eq_true, if_false, Bool.not_true, List.count_append, ih,
                  Bool.or_false, Bool.or_true, Bool.not_false, Bool.and_true, if_true, Bool.true_or, Bool.false_or, Bool.true_and]
                simp only [extremeEqn, if_true]
                omega
            · rw [Bool.not_eq_true] at h5
              have h6 : r.isUpper i = true := by
                simp only [Row.isLower, Row.isUpper, decide_eq_true_eq, decide_eq_false_iff_not] at *
                omega
              rw [h5, h6]
              cases mn with
              | true => simp [ih]
              | false =>
                simp only [Bool.false_and, Bool.and_false, Bool.false_eq_true, if_false, Bool.not_true, List.count_append, ih,
                  Bool.or_false, Bool.or_true, Bool.not_false, Bool.and_true, if_true, Bool.true_or, Bool.false_or, Bool.true_and]
                simp only [extremeEqn, Bool.false_eq_true, if_false]
                omega
    · rw [if_pos (by simpa using h1), ih]
      rw [Bool.not_eq_true] at h1
      have : elig D L i r = false := by unfold elig; rw [h1]; rfl
      simp [List.filter_cons, this]

/-- No column has an equality and an inequality that both make conditions. -/
def Unmixed (D : Dom) (nm : Names) (L : Nat) (rows : List Row) : Prop :=
  L ≠ 0 → ∀ i, i < D.total nm → ∀ r ∈ rows, ∀ s ∈ rows, elig D L i r = true → elig D L i s = true → r.isEq = s.isEq

/-- Different columns have different expressions. -/
def VarsInj (D : Dom) (nm : Names) : Prop := ∀ i, i < D.total nm → ∀ j, j < D.total nm → D.vars nm i = D.vars nm j → i = j

theorem guardRows_mem {cx : Ctx} {D : Dom} {L i : Nat} {copy : List Row} {q : Eqn}
    (h : q ∈ guardRows cx D L copy i copy false false) :
    (∃ k, q.lhs = .term k (D.vars cx.nm i)) ∧
    ((SumOnly q.rhs ∧ ∃ r ∈ copy, elig D L i r = true ∧ (L = 0 ∨ r.isEq = true)) ∨
      ∃ m, q ∈ extremeEqn cx.sort D cx.nm L i copy m ∧ L ≠ 0 ∧ ∃ r ∈ copy, elig D L i r = true ∧ r.isEq = false) := by
  have hc := List.count_pos_iff.2 h
  rw [guardRows_count] at hc
  have ext : ∀ {m : Bool}, q ∈ extremeEqn cx.sort D cx.nm L i copy m → ∃ k, q.lhs = .term k (D.vars cx.nm i) := by
    intro m hm
    unfold extremeEqn at hm
    rw [Option.mem_toList, Option.map_eq_some_iff] at hm
    obtain ⟨a, -, rfl⟩ := hm
    exact ⟨1, rfl⟩
  have hpos : ∀ a b c : Nat, 0 < a + b + c → 0 < a ∨ 0 < b ∨ 0 < c := by omega
  rcases hpos _ _ _ hc with hc | hc | hc
  · have := List.count_pos_iff.1 hc
    rw [List.mem_filterMap] at this
    obtain ⟨r, hr, hq⟩ := this
    rw [List.mem_filter] at hr
    simp only [Bool.and_eq_true, decide_eq_true_eq] at hr
    unfold individualEqn at hq
    dsimp only at hq
    rw [Option.map_eq_some_iff] at hq
    obtain ⟨e, h1, rfl⟩ := hq
    exact ⟨⟨_, rfl⟩, Or.inl ⟨Props.Bounds.bound_sumOnly _ _ _ (vars_sum D cx.nm) e h1, r, hr.1, hr.2.1, hr.2.2⟩⟩
  all_goals
    split at hc
    · rename_i ha
      rw [Bool.and_eq_true, List.any_eq_true] at ha
      obtain ⟨-, r, hr, ha⟩ := ha
      simp only [Bool.and_eq_true, Bool.not_eq_true', decide_eq_false_iff_not, not_or, Bool.not_eq_true] at ha
      have hm := List.count_pos_iff.1 hc
      exact ⟨ext hm, Or.inr ⟨_, hm, ha.1.2.1, r, hr, ha.1.1, ha.1.2.2⟩⟩
    · omega

theorem guardEqns_tame {cx : Ctx} {D : Dom} {L : Nat} {copy : List Row} (hu : Unmixed D cx.nm L copy) (hv : VarsInj D cx.nm) :
    Tame (guardEqns cx D L copy) := by
  have key : ∀ q ∈ guardEqns cx D L copy, ∃ i, i < D.total cx.nm ∧ (∃ k, q.lhs = .term k (D.vars cx.nm i)) ∧
      ((SumOnly q.rhs ∧ ∃ r ∈ copy, elig D L i r = true ∧ (L = 0 ∨ r.isEq = true)) ∨
      ∃ m, q ∈ extremeEqn cx.sort D cx.nm L i copy m ∧ L ≠ 0 ∧ ∃ r ∈ copy, elig D L i r = true ∧ r.isEq = false) := by
    intro q hq
    unfold guardEqns at hq
    rw [List.mem_flatMap] at hq
    obtain ⟨i, hi, hq⟩ := hq
    exact ⟨i, List.mem_range.1 hi, guardRows_mem hq⟩
  have one : ∀ {i : Nat} {m : Bool} {a b : Eqn}, a ∈ extremeEqn cx.sort D cx.nm L i copy m →
      b ∈ extremeEqn cx.sort D cx.nm L i copy m → a = b := by
    intro i m a b ha hb
    unfold extremeEqn at ha hb
    rw [Option.mem_toList] at ha hb
    rw [ha] at hb
    cases hb
    rfl
  have sgn : ∀ {i : Nat} {a b : Eqn}, a ∈ extremeEqn cx.sort D cx.nm L i copy true →
      b ∈ extremeEqn cx.sort D cx.nm L i copy false → a.sign ≠ b.sign := by
    intro i a b ha hb
    unfold extremeEqn at ha hb
    rw [Option.mem_toList, Option.map_eq_some_iff] at ha hb
    obtain ⟨_, -, rfl⟩ := ha
    obtain ⟨_, -, rfl⟩ := hb
    simp
  -- Two conditions with the same left-hand side are of one kind.
  have pair : ∀ a ∈ guardEqns cx D L copy, ∀ b ∈ guardEqns cx D L copy, a.lhs = b.lhs →
      (SumOnly a.rhs ∧ SumOnly b.rhs) ∨ ∃ i ma mb, a ∈ extremeEqn cx.sort D cx.nm L i copy ma ∧
        b ∈ extremeEqn cx.sort D cx.nm L i copy mb ∧ (∃ k, a.lhs = .term k (D.vars cx.nm i)) ∧ i < D.total cx.nm := by
    intro a ha b hb hab
    obtain ⟨i, hi, ⟨ka, la⟩, h1⟩ := key a ha
    obtain ⟨j, hj, ⟨kb, lb⟩, h2⟩ := key b hb
    have hij : i = j := by
      rw [la, lb] at hab
      exact hv i hi j hj (Expr.term.inj hab).2
    subst hij
    rcases h1 with ⟨sa, r, hr, er, qr⟩ | ⟨ma, xa, hL, r, hr, er, qr⟩
    · rcases h2 with ⟨sb, -⟩ | ⟨mb, xb, hL, s, hs, es, qs⟩
      · exact Or.inl ⟨sa, sb⟩
      · have := hu hL i hi r hr s hs er es
        rw [qs] at this
        rcases qr with qr | qr
        · exact absurd qr hL
        · rw [qr] at this; cases this
    · rcases h2 with ⟨sb, s, hs, es, qs⟩ | ⟨mb, xb, -⟩
      · have := hu hL i hi r hr s hs er es
        rw [qr] at this
        rcases qs with qs | qs
        · exact absurd qs hL
        · rw [qs] at this; cases this
      · exact Or.inr ⟨i, ma, mb, xa, xb, ⟨ka, la⟩, hi⟩
  refine ⟨fun a ha => ?_, fun a ha b hb c hc h1 h2 => ?_, fun a ha b hb h1 => ?_⟩
  · obtain ⟨i, -, ⟨k, h⟩, -⟩ := key a ha
    rw [h, SumOnly]
    exact vars_sum D cx.nm i
  · rcases pair a ha b hb h1 with ⟨sa, sb⟩ | ⟨i, ma, mb, xa, xb, ⟨k, la⟩, hi⟩
    · rcases pair b hb c hc h2 with ⟨_, sc⟩ | ⟨i, mb, mc, xb, xc, ⟨kb, lb⟩, hi⟩
      · exact Or.inl ⟨sa, sb, sc⟩
      · exfalso
        unfold extremeEqn at xb
        rw [Option.mem_toList, Option.map_eq_some_iff] at xb
        obtain ⟨e, hm, rfl⟩ := xb
        unfold minmax at hm
        dsimp only at hm
        split at hm
        · cases hm
        · rw [Option.some.injEq] at hm
          subst hm
          simp only [SumOnly] at sb
          cases mb <;> simp at sb
    · rcases pair b hb c hc h2 with ⟨sb, _⟩ | ⟨j, mb', mc, xb', xc, ⟨kb, lb⟩, hj⟩
      · exfalso
        unfold extremeEqn at xb
        rw [Option.mem_toList, Option.map_eq_some_iff] at xb
        obtain ⟨e, hm, rfl⟩ := xb
        unfold minmax at hm
        dsimp only at hm
        split at hm
        · cases hm
        · rw [Option.some.injEq] at hm
          subst hm
          simp only [SumOnly] at sb
          cases mb <;> simp at sb
      · have hij : i = j := by
          rw [la, lb] at h1
          exact hv i hi j hj (Expr.term.inj h1).2
        subst hij
        right
        by_cases e1 : ma = mb
        · subst e1; exact Or.inl (one xa xb)
        · by_cases e2 : mb = mc
          · subst e2; exact Or.inr (Or.inl (one xb xc))
          · have : ma = mc := by cases ma <;> cases mb <;> cases mc <;> simp_all
            subst this
            exact Or.inr (Or.inr (one xa xc))
  · rcases pair a ha b hb h1 with h | ⟨i, ma, mb, xa, xb, -⟩
    · exact Or.inl h
    · right
      cases ma <;> cases mb
      · exact Or.inl (one xa xb)
      · exact Or.inr (Ne.symm (sgn xb xa))
      · exact Or.inr (sgn xa xb)
      · exact Or.inl (one xa xb)

theorem guardEqns_perm (h : ICmpExact icmp) {cx : Ctx} (hs : Sorts (exprCmp icmp) cx.sort) {s g}
    (hs' : Sorts (exprCmp icmp) s) {D : Dom} {rows' copy copy' : List Row} (hp : copy.Perm copy') (L : Nat) :
    (guardEqns cx D L copy).Perm (guardEqns (Ctx.with cx s g) { D with rows := rows' } L copy') := by
  have hx : ∀ i m, extremeEqn cx.sort D cx.nm L i copy m =
      extremeEqn s { D with rows := rows' } cx.nm L i copy' m := fun i m => by
    unfold extremeEqn
    rw [minmax_perm h hs hs' hp (vars_sum D cx.nm)]
    rfl
  rw [List.perm_iff_count]
  intro q
  unfold guardEqns
  rw [List.count_flatMap, List.count_flatMap]
  change (List.map _ (List.range (D.total cx.nm))).sum = (List.map _ (List.range (D.total cx.nm))).sum
  congr 1
  refine List.map_congr_left fun i _ => ?_
  simp only [Function.comp]
  rw [guardRows_count, guardRows_count]
  have e1 := (((hp.filter (fun r => elig D L i r && decide (L = 0 ∨ r.isEq = true))).filterMap
    (fun r => individualEqn r i (D.vars cx.nm))).count_eq q)
  have e2 : ∀ f : Row → Bool, copy.any f = copy'.any f := fun f => by
    rw [Bool.eq_iff_iff, List.any_eq_true, List.any_eq_true]
    constructor
    · rintro ⟨x, h1, h2⟩; exact ⟨x, hp.mem_iff.1 h1, h2⟩
    · rintro ⟨x, h1, h2⟩; exact ⟨x, hp.mem_iff.2 h1, h2⟩
  rw [e1, e2, e2, hx, hx]
  rfl

/-! ## Searching -/

theorem find_perm {α : Type} {p : α → Bool} {l l' : List α} (hp : l.Perm l')
    (h1 : ∀ a ∈ l, ∀ b ∈ l, p a = true → p b = true → a = b) : l.find? p = l'.find? p := by
  cases hl : l.find? p with
  | none =>
    symm
    rw [List.find?_eq_none] at hl ⊢
    exact fun x hx => hl x (hp.mem_iff.2 hx)
  | some a =>
    have ha := List.mem_of_find?_eq_some hl
    have pa := List.find?_some hl
    cases hl' : l'.find? p with
    | none =>
      rw [List.find?_eq_none] at hl'
      exact absurd pa (hl' a (hp.mem_iff.1 ha))
    | some b =>
      rw [h1 a ha b (hp.mem_iff.2 (List.mem_of_find?_eq_some hl')) pa (List.find?_some hl')]

/-- The test of `definingEquality`. -/
def eqTest (D : Dom) (col : Nat) (r : Row) : Bool :=
  r.isEq && r.at col != 0 && (List.range (D.nIter + D.divs.length)).all (fun c => c ≤ col || r.at c == 0)

/-- The tests of `findPair`. -/
def pairTest (D : Dom) (col : Nat) (r : Row) : Bool :=
  !r.isEq && decide (1 < cabs (r.at col)) && (List.range (D.nIter + D.divs.length)).all (fun c => decide (c ≤ col) || r.at c == 0)
/-- The second. -/
def partner (D : Dom) (nPar col : Nat) (r s : Row) : Bool :=
  !s.isEq && oppositeCoef r s (D.nIter + D.divs.length + nPar) && decide (cabs (r.cst + s.cst) < cabs (r.at col))
/-- Upper bound first. -/
def orient (col : Nat) (r s : Row) : Row × Row := if r.at col > 0 then (s, r) else (r, s)

/-- There is at most one constraint, or pair of constraints, that defines a column. -/
structure Single (D : Dom) (nPar : Nat) (rows : List Row) : Prop where
  eq : ∀ col, col < D.nIter + D.divs.length → ∀ r ∈ rows, ∀ s ∈ rows, eqTest D col r = true → eqTest D col s = true → r = s
  pair : ∀ col, col < D.nIter + D.divs.length → ∀ r ∈ rows, ∀ s ∈ rows, ∀ r' ∈ rows, ∀ s' ∈ rows,
    pairTest D col r = true → partner D nPar col r s = true → pairTest D col r' = true → partner D nPar col r' s' = true →
    orient col r s = orient col r' s'

theorem Single.sub {D : Dom} {nPar : Nat} {rows rows' : List Row} (h : Single D nPar rows) (hs : ∀ r ∈ rows', r ∈ rows) :
    Single D nPar rows' :=
  ⟨fun col hc r hr s hs' => h.eq col hc r (hs r hr) s (hs s hs'),
    fun col hc r h1 s h2 r' h3 s' h4 => h.pair col hc r (hs r h1) s (hs s h2) r' (hs r' h3) s' (hs s' h4)⟩

theorem cabs_neg (a : Int) : cabs (-a) = cabs a := by unfold cabs; split <;> split <;> omega

theorem partner_swap {D : Dom} {nPar col : Nat} (hc : col < D.nIter + D.divs.length) {r s : Row} (h1 : pairTest D col r = true)
    (h2 : partner D nPar col r s = true) : pairTest D col s = true ∧ partner D nPar col s r = true := by
  unfold pairTest partner oppositeCoef at *
  simp only [Bool.and_eq_true, Bool.not_eq_true', decide_eq_true_eq, List.all_eq_true, List.mem_range, Bool.or_eq_true,
    beq_iff_eq] at *
  obtain ⟨⟨a1, a2⟩, a3⟩ := h1
  obtain ⟨⟨b1, b2⟩, b3⟩ := h2
  have hs := b2 col (by omega)
  refine ⟨⟨⟨b1, by rw [hs, cabs_neg]; exact a2⟩, fun c hc' => (a3 c hc').imp id fun h => ?_⟩,
    ⟨a1, fun c hc' => by rw [b2 c hc', neg_neg]⟩, ?_⟩
  · rw [b2 c (by omega), h, neg_zero]
  · rw [hs, cabs_neg, add_comm]
    exact b3

theorem findPair_cases (D : Dom) (nPar col : Nat) (hc : col < D.nIter + D.divs.length) : ∀ rows : List Row,
    (∀ q, findPair D nPar col rows = some q → ∃ r ∈ rows, ∃ s ∈ rows, pairTest D col r = true ∧ partner D nPar col r s = true ∧
      q = orient col r s) ∧
    (findPair D nPar col rows = none → ∀ r ∈ rows, ∀ s ∈ rows, pairTest D col r = true → partner D nPar col r s = true → False)
  | [] => ⟨by simp [findPair], by simp⟩
  | r0 :: rs => by
    obtain ⟨ih1, ih2⟩ := findPair_cases D nPar col hc rs
    have wk : ∀ q, findPair D nPar col rs = some q → ∃ r ∈ r0 :: rs, ∃ s ∈ r0 :: rs, pairTest D col r = true ∧
        partner D nPar col r s = true ∧ q = orient col r s := fun q hq => by
      obtain ⟨r, hr, s, hs, h⟩ := ih1 q hq
      exact ⟨r, List.mem_cons_of_mem _ hr, s, List.mem_cons_of_mem _ hs, h⟩
    have self : pairTest D col r0 = true → partner D nPar col r0 r0 = true → False := by
      intro h1 h2
      unfold pairTest partner oppositeCoef at *
      simp only [Bool.and_eq_true, Bool.not_eq_true', decide_eq_true_eq, List.all_eq_true, List.mem_range, beq_iff_eq] at *
      have h0 := h2.1.2 col (by omega)
      have : r0.at col = 0 := by omega
      have h3 := h1.1.2
      rw [this] at h3
      simp [cabs] at h3
    have step : findPair D nPar col (r0 :: rs) = if pairTest D col r0 then
        match rs.find? (partner D nPar col r0) with
        | some s => some (orient col r0 s)
        | none => findPair D nPar col rs
      else findPair D nPar col rs := by
      rw [findPair]
      unfold pairTest
      split
      · change (match rs.find? (partner D nPar col r0) with
          | some s => if r0.at col > 0 then some (s, r0) else some (r0, s)
          | none => findPair D nPar col rs) = _
        cases rs.find? (partner D nPar col r0) with
        | none => rfl
        | some s => dsimp only; unfold orient; split <;> rfl
      · rfl
    rw [step]
    by_cases ht : pairTest D col r0 = true
    · rw [if_pos ht]
      cases hf : rs.find? (partner D nPar col r0) with
      | some s =>
        refine ⟨fun q hq => ?_, by simp⟩
        simp only [Option.some.injEq] at hq
        exact ⟨r0, List.mem_cons_self, s, List.mem_cons_of_mem _ (List.mem_of_find?_eq_some hf), ht, List.find?_some hf, hq.symm⟩
      | none =>
        refine ⟨wk, fun hn r hr s hs h1 h2 => ?_⟩
        rw [List.find?_eq_none] at hf
        rcases List.mem_cons.1 hr with rfl | hr'
        · rcases List.mem_cons.1 hs with rfl | hs'
          · exact self h1 h2
          · exact hf s hs' h2
        · rcases List.mem_cons.1 hs with rfl | hs'
          · exact hf r hr' (partner_swap hc h1 h2).2
          · exact ih2 hn r hr' s hs' h1 h2
    · rw [if_neg ht]
      refine ⟨wk, fun hn r hr s hs h1 h2 => ?_⟩
      rcases List.mem_cons.1 hr with rfl | hr
      · exact ht h1
      · rcases List.mem_cons.1 hs with rfl | hs
        · exact ht (partner_swap hc h1 h2).1
        · exact ih2 hn r hr s hs h1 h2

theorem findPair_perm {D : Dom} {nPar col : Nat} (hc : col < D.nIter + D.divs.length) {rows rows' : List Row}
    (hp : rows.Perm rows') (h : Single D nPar rows) : findPair D nPar col rows = findPair D nPar col rows' := by
  obtain ⟨a1, a2⟩ := findPair_cases D nPar col hc rows
  obtain ⟨b1, b2⟩ := findPair_cases D nPar col hc rows'
  cases hl : findPair D nPar col rows with
  | none =>
    cases hl' : findPair D nPar col rows' with
    | none => rfl
    | some q =>
      obtain ⟨r, hr, s, hs, h1, h2, -⟩ := b1 q hl'
      exact (a2 hl r (hp.mem_iff.2 hr) s (hp.mem_iff.2 hs) h1 h2).elim
  | some q =>
    obtain ⟨r, hr, s, hs, h1, h2, rfl⟩ := a1 q hl
    cases hl' : findPair D nPar col rows' with
    | none => exact (b2 hl' r (hp.mem_iff.1 hr) s (hp.mem_iff.1 hs) h1 h2).elim
    | some q' =>
      obtain ⟨r', hr', s', hs', h1', h2', rfl⟩ := b1 q' hl'
      rw [h.pair col hc r hr s hs r' (hp.mem_iff.2 hr') s' (hp.mem_iff.2 hs') h1 h2 h1' h2']

theorem definingEquality_perm {D : Dom} {nPar col : Nat} (hc : col < D.nIter + D.divs.length) {rows rows' : List Row}
    (hp : rows.Perm rows') (h : Single D nPar rows) : D.definingEquality rows col = D.definingEquality rows' col :=
  find_perm hp (h.eq col hc)

theorem definingInequalities_perm {D : Dom} {nPar col : Nat} (hc : col < D.nIter + D.divs.length) {rows rows' : List Row}
    (hp : rows.Perm rows') (h : Single D nPar rows) :
    D.definingInequalities nPar rows col = D.definingInequalities nPar rows' col := by
  unfold Dom.definingInequalities
  rw [findPair_perm hc hp h]
  have e2 : ∀ f : Row → Bool, rows.any f = rows'.any f := fun f => by
    rw [Bool.eq_iff_iff, List.any_eq_true, List.any_eq_true]
    constructor
    · rintro ⟨x, h1, h2⟩; exact ⟨x, hp.mem_iff.1 h1, h2⟩
    · rintro ⟨x, h1, h2⟩; exact ⟨x, hp.mem_iff.2 h1, h2⟩
  split
  · rfl
  · rw [e2]

/-! ## Trees -/

/-- What is asked of a domain at level `L`. -/
structure Plain (nm : Names) (L : Nat) (D : Dom) : Prop where
  single : Single D nm.nPar D.rows
  unmixed : Unmixed D nm L D.rows
  inj : VarsInj D nm

theorem dropRow_sub {rows : List Row} {r : Row} : ∀ x ∈ dropRow rows r, x ∈ rows := fun x hx => by
  unfold dropRow at hx
  exact (List.mem_filter.1 hx).1

theorem dropRow_perm {rows rows' : List Row} (h : rows.Perm rows') (r : Row) : (dropRow rows r).Perm (dropRow rows' r) :=
  h.filter _

theorem modGuard_with (cx : Ctx) (s g) (D : Dom) (rows' : List Row) (eqs : List (Nat × Row)) (strides : Nat → Option Stride)
    (sl : Nat) (u : Row) (l : Option Row) (col : Nat) :
    modGuard (Ctx.with cx s g) { D with rows := rows' } eqs strides sl u l col = modGuard cx D eqs strides sl u l col := rfl

theorem defEq_with (D : Dom) (rows' : List Row) : Dom.definingEquality { D with rows := rows' } = D.definingEquality := rfl

theorem defIneq_with (D : Dom) (rows' : List Row) : Dom.definingInequalities { D with rows := rows' } = D.definingInequalities := by
  funext a b c
  have : ∀ r, findPair { D with rows := rows' } a c r = findPair D a c r := fun r => by
    induction r with
    | nil => rfl
    | cons x xs ih => rw [findPair, findPair, ih]
  unfold Dom.definingInequalities
  rw [this]

theorem nm_with (cx : Ctx) (s g) : (Ctx.with cx s g).nm = cx.nm := rfl

/-- Results of `extraModGuards` that differ in the order of the constraints only. -/
def Rel (rows : List Row) : Option (List Row × List ModOut) → Option (List Row × List ModOut) → Prop
  | some x, some y => x.1.Perm y.1 ∧ x.2 = y.2 ∧ ∀ r ∈ x.1, r ∈ rows
  | none, none => True
  | _, _ => False

theorem extraModGuards_perm {cx : Ctx} {s g} {D : Dom} {rows0 : List Row} {L : Nat} {eqs : List (Nat × Row)}
    {strides : Nat → Option Stride} {sl : Nat} : ∀ (k : Nat) (rows rows' : List Row), k ≤ D.divs.length → rows.Perm rows' →
    Single D cx.nm.nPar rows →
    Rel rows (extraModGuards cx D L eqs strides sl k rows)
      (extraModGuards (Ctx.with cx s g) { D with rows := rows0 } L eqs strides sl k rows')
  | 0, rows, rows', _, hp, _ => by
    simp only [extraModGuards]
    exact ⟨hp, rfl, fun r hr => hr⟩
  | k + 1, rows, rows', hk, hp, hs => by
    have hc : D.nIter + k < D.nIter + D.divs.length := by omega
    have ih := fun (a a' : List Row) (hpa : a.Perm a') (hsub : ∀ r ∈ a, r ∈ rows) =>
      extraModGuards_perm (cx := cx) (s := s) (g := g) (D := D) (rows0 := rows0) (L := L) (eqs := eqs) (strides := strides)
        (sl := sl) k a a' (by omega) hpa (hs.sub hsub)
    have e1 := definingEquality_perm hc hp hs
    have e2 := definingInequalities_perm hc hp hs
    rw [extraModGuards, extraModGuards]
    simp only [defEq_with, defIneq_with, modGuard_with, nm_with, Option.bind_eq_bind]
    rw [← e1, ← e2]
    have fin : ∀ (a a' : List Row), a.Perm a' → (∀ r ∈ a, r ∈ rows) → ∀ m : Option ModOut,
        Rel rows (m.bind (fun o => (extraModGuards cx D L eqs strides sl k a).bind fun x => some (x.1, o :: x.2)))
          (m.bind (fun o => (extraModGuards (Ctx.with cx s g) { D with rows := rows0 } L eqs strides sl k a').bind fun x =>
            some (x.1, o :: x.2))) := by
      intro a a' hpa hsub m
      have := ih a a' hpa hsub
      cases m with
      | none => trivial
      | some o =>
        simp only [Option.bind_some]
        generalize extraModGuards cx D L eqs strides sl k a = x at this ⊢
        generalize extraModGuards (Ctx.with cx s g) { D with rows := rows0 } L eqs strides sl k a' = y at this ⊢
        rcases x with _ | ⟨xa, xo⟩ <;> rcases y with _ | ⟨ya, yo⟩
        · trivial
        · exact this
        · exact this
        · exact ⟨this.1, by rw [this.2.1], fun r hr => hsub r (this.2.2 r hr)⟩
    cases D.definingEquality rows (D.nIter + k) with
    | some u =>
      dsimp only
      by_cases hu : Row.involvesOpt u (guardCol D L) = true
      · rw [if_pos hu, if_pos (show Row.involvesOpt u (guardCol { D with rows := rows0 } L) = true from hu)]
        exact ih rows rows' hp (fun r hr => hr)
      · rw [if_neg hu, if_neg (show ¬ Row.involvesOpt u (guardCol { D with rows := rows0 } L) = true from hu)]
        exact fin _ _ (dropRow_perm hp u) dropRow_sub _
    | none =>
      dsimp only
      rcases D.definingInequalities cx.nm.nPar rows (D.nIter + k) with _ | ⟨u, l⟩
      · exact ih rows rows' hp (fun r hr => hr)
      · dsimp only
        by_cases hu : Row.involvesOpt u (guardCol D L) = true
        · rw [if_pos hu, if_pos (show Row.involvesOpt u (guardCol { D with rows := rows0 } L) = true from hu)]
          exact ih rows rows' hp (fun r hr => hr)
        · rw [if_neg hu, if_neg (show ¬ Row.involvesOpt u (guardCol { D with rows := rows0 } L) = true from hu)]
          exact fin _ _ (dropRow_perm (dropRow_perm hp u) l) (fun r hr => dropRow_sub r (dropRow_sub r hr)) _

theorem Unmixed.sub {D : Dom} {nm : Names} {L : Nat} {rows rows' : List Row} (h : Unmixed D nm L rows)
    (hs : ∀ r ∈ rows', r ∈ rows) : Unmixed D nm L rows' := fun hL i hi r hr s hs' => h hL i hi r (hs r hr) s (hs s hs')

theorem insertGuard_perm (h : ICmpExact icmp) {cx : Ctx} (hs : Sorts (exprCmp icmp) cx.sort) (hg : Sorts (eqnCmp icmp) cx.gsort)
    {s g} (hs' : Sorts (exprCmp icmp) s) (hg' : Sorts (eqnCmp icmp) g) {D : Dom} {rows' : List Row} (hp : D.rows.Perm rows')
    {L : Nat} (hP : Plain cx.nm L D) (eqs : List (Nat × Row)) (strides : Nat → Option Stride) (sl : Nat) :
    insertGuard cx D L eqs strides sl = insertGuard (Ctx.with cx s g) { D with rows := rows' } L eqs strides sl := by
  have he := extraModGuards_perm (cx := cx) (s := s) (g := g) (D := D) (rows0 := rows') (L := L) (eqs := eqs)
    (strides := strides) (sl := sl) D.divs.length D.rows rows' (le_refl _) hp hP.single
  unfold insertGuard
  dsimp only
  generalize extraModGuards cx D L eqs strides sl D.divs.length D.rows = x at he ⊢
  generalize extraModGuards (Ctx.with cx s g) { D with rows := rows' } L eqs strides sl D.divs.length rows' = y at he ⊢
  rcases x with _ | ⟨xa, xo⟩ <;> rcases y with _ | ⟨ya, yo⟩
  · rfl
  · exact he.elim
  · exact he.elim
  · obtain ⟨h1, rfl, h3⟩ := he
    have hq := guardEqns_perm h hs (s := s) (g := g) hs' (D := D) (rows' := rows') h1 L
    have ht := guardEqns_tame (hP.unmixed.sub h3) hP.inj
    have e1 : cx.gsort (guardEqns cx D L xa) = g (guardEqns (Ctx.with cx s g) { D with rows := rows' } L ya) :=
      sorts_eq hg hg' hq (ht.consistent h) (ht.zero h)
    have e2 : (guardEqns cx D L xa).isEmpty = (guardEqns (Ctx.with cx s g) { D with rows := rows' } L ya).isEmpty := by
      rw [Bool.eq_iff_iff, List.isEmpty_iff, List.isEmpty_iff]
      exact ⟨fun h => by rw [h] at hq; exact List.Perm.nil_eq hq |>.symm, fun h => by rw [h] at hq; exact hq.eq_nil⟩
    simp only [Option.bind_eq_bind, Option.bind_some]
    rw [e1, e2]
    rfl

theorem insertEquation_with (cx : Ctx) (s g) (D : Dom) (rows' : List Row) (L : Nat) (eqs : List (Nat × Row))
    (strides : Nat → Option Stride) (u : Row) (l : Option Row) :
    insertEquation (Ctx.with cx s g) { D with rows := rows' } L eqs strides u l = insertEquation cx D L eqs strides u l := by
  have ha : assign (Ctx.with cx s g) = assign cx := rfl
  have hv : Dom.vars { D with rows := rows' } = D.vars := rfl
  have he : equalAllow (Ctx.with cx s g) = equalAllow cx := rfl
  have ht : eqType { D with rows := rows' } = eqType D := rfl
  have ho : (Ctx.with cx s g).otl = cx.otl := rfl
  have hn : (Ctx.with cx s g).nm = cx.nm := rfl
  unfold insertEquation
  simp only [ha, hv, he, ht, ho, hn, modGuard_with]

theorem loopStep_perm (h : ICmpExact icmp) {cx : Ctx} (hs : Sorts (exprCmp icmp) cx.sort) {s g}
    (hs' : Sorts (exprCmp icmp) s) {D : Dom} {rows' : List Row} (hp : D.rows.Perm rows') {L : Nat} (hP : Plain cx.nm L D)
    (otl : Bool) (eqs : List (Nat × Row)) (strides : Nat → Option Stride) :
    loopStep cx icmp D L otl eqs strides = loopStep (Ctx.with cx s g) icmp { D with rows := rows' } L otl eqs strides := by
  unfold loopStep
  have ev : Dom.vars { D with rows := rows' } = D.vars := rfl
  simp only [defEq_with, defIneq_with, nm_with, ev, insertEquation_with]
  by_cases hL : 0 < L ∧ L ≤ D.nIter
  · rw [if_pos hL, if_pos hL, ← definingEquality_perm (by omega) hp hP.single, ← definingInequalities_perm (by omega) hp hP.single]
    have : insertFor cx icmp D.rows L otl (strides (L - 1)) (D.vars cx.nm) =
        insertFor (Ctx.with cx s g) icmp rows' L otl (strides (L - 1)) (D.vars cx.nm) := by
      unfold insertFor
      dsimp only
      rw [loopBound_perm h hs (s := s) (g := g) hs' hp (vars_sum D cx.nm), loopBound_perm h hs (s := s) (g := g) hs' hp (vars_sum D cx.nm)]
      rfl
    rw [this]
  · rw [if_neg hL, if_neg hL]

theorem isEquality_perm {cx : Ctx} {D : Dom} {rows' : List Row} (hp : D.rows.Perm rows') {L : Nat} (hP : Plain cx.nm L D) :
    isEquality D L = isEquality { D with rows := rows' } L := by
  unfold isEquality
  by_cases hL : 0 < L ∧ L ≤ D.nIter
  · change _ = (decide (0 < L ∧ L ≤ D.nIter) && (D.definingEquality rows' (L - 1)).isSome)
    rw [definingEquality_perm (nPar := cx.nm.nPar) (by omega) hp hP.single]
  · simp [hL]

mutual
/-- The same tree with the constraints of the domains in another order. -/
inductive Shuffle : Loop → Loop → Prop
  | mk {n ds rows rows' st otl block inner inner'} : rows.Perm rows' → Shuffles inner inner' →
      Shuffle (.mk ⟨n, ds, rows⟩ st otl block inner) (.mk ⟨n, ds, rows'⟩ st otl block inner')
/-- The same for lists of loops. -/
inductive Shuffles : List Loop → List Loop → Prop
  | nil : Shuffles [] []
  | cons {l l' ls ls'} : Shuffle l l' → Shuffles ls ls' → Shuffles (l :: ls) (l' :: ls')
end

mutual
/-- All domains of a tree are plain. -/
def Plains (nm : Names) (L : Nat) : Loop → Prop
  | .mk D _ _ _ inner => Plain nm L D ∧ PlainsL nm (L + 1) inner
/-- The same for lists of loops. -/
def PlainsL (nm : Names) (L : Nat) : List Loop → Prop
  | [] => True
  | l :: ls => Plains nm L l ∧ PlainsL nm L ls
end

section
variable (h : ICmpExact icmp) {cx : Ctx} (hs : Sorts (exprCmp icmp) cx.sort) (hg : Sorts (eqnCmp icmp) cx.gsort)
    {s : List Expr → List Expr} {g : List Eqn → List Eqn} (hs' : Sorts (exprCmp icmp) s) (hg' : Sorts (eqnCmp icmp) g)

include h hs hg hs' hg'

mutual
theorem insertLoop_perm : ∀ {l l'}, Shuffle l l' → ∀ (L : Nat) (eqs : List (Nat × Row)) (strides : Nat → Option Stride),
    Plains cx.nm L l → insertLoop cx icmp L eqs strides l = insertLoop (Ctx.with cx s g) icmp L eqs strides l'
  | _, _, .mk (n := n) (ds := ds) (rows := rows) (rows' := rows') hp hi, L, eqs, strides, hP => by
    rw [Plains] at hP
    have e1 := insertGuard_perm h hs hg (s := s) (g := g) hs' hg' (D := ⟨n, ds, rows⟩) hp hP.1 eqs
    have e2 := loopStep_perm h hs (s := s) (g := g) hs' (D := ⟨n, ds, rows⟩) hp hP.1
    have e3 := isEquality_perm (cx := cx) (D := ⟨n, ds, rows⟩) hp hP.1
    have e4 := fun eqs strides => insertLoops_perm hi (L + 1) eqs strides hP.2
    unfold insertLoop
    dsimp only
    rw [e1, e2, e3]
    simp only [e4]
    rfl
theorem insertLoops_perm : ∀ {l l'}, Shuffles l l' → ∀ (L : Nat) (eqs : List (Nat × Row)) (strides : Nat → Option Stride),
    PlainsL cx.nm L l → insertLoops cx icmp L eqs strides l = insertLoops (Ctx.with cx s g) icmp L eqs strides l'
  | _, _, .nil, L, eqs, strides, _ => by rw [insertLoops, insertLoops]
  | _, _, .cons h1 h2, L, eqs, strides, hP => by
    rw [PlainsL] at hP
    rw [insertLoops, insertLoops, insertLoop_perm h1 L eqs strides hP.1, insertLoops_perm h2 L eqs strides hP.2]
end
end

end Verif.Order
