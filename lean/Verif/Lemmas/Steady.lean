import Verif.Lemmas.ClastNames
import Verif.Props.ClastExec

/-!
# Loops that keep their last value

Generated code never assigns, inside a loop, the iterator of the loop or a variable of its last value.
-/

namespace Verif.Steady
open Verif.Clast Verif.ClastGen Verif.Bound Verif.IntOps Verif.ClastNames

mutual
/-- No loop changes its own variable or a variable of its last value; with `lo` also of its first value. -/
def steady (lo : Bool) : Stmt → Bool
  | .ass _ _ | .user _ _ => true
  | .block b => steadys lo b
  | .guard _ b => steadys lo b
  | .for_ it lb ub _ b => decide (it ∉ setsS b) && decide (∀ x ∈ readsO ub, x ≠ it ∧ x ∉ setsS b) &&
      decide (lo = true → ∀ x ∈ readsO lb, x ≠ it ∧ x ∉ setsS b) && steadys lo b
/-- The same for lists. -/
def steadys (lo : Bool) : List Stmt → Bool
  | [] => true
  | s :: ss => steady lo s && steadys lo ss
end

theorem steadys_append : ∀ a b : List Stmt, steadys lo (a ++ b) = (steadys lo a && steadys lo b)
  | [], b => by simp [steadys]
  | s :: a, b => by rw [List.cons_append, steadys, steadys, steadys_append a b, Bool.and_assoc]

/-! ## Expressions -/

/-- Iterators before column `k`, and parameters. -/
def Bef (nm : Names) (k : Nat) (s : String) : Prop := (∃ i < k, s = nm.at_ i) ∨ ∃ j < nm.nPar, s = nm.param j

theorem boundTerms_congr {neg : Bool} {l : Nat} {v v' : Nat → Expr} (h : ∀ k, k ≠ l → v k = v' k) : ∀ (cs : List Int) (i : Nat),
    boundTerms neg l v cs i = boundTerms neg l v' cs i
  | [], _ => rfl
  | c :: cs, i => by
    rw [boundTerms, boundTerms, boundTerms_congr h cs]
    split
    · rfl
    · rename_i hn
      rw [h i (fun e => hn (Or.inl e))]

theorem bound_congr {r : Row} {l : Nat} {v v' : Nat → Expr} (h : ∀ k, k ≠ l → v k = v' k) :
    boundFromConstraint r l v = boundFromConstraint r l v' := by
  unfold boundFromConstraint
  simp only [boundTerms_congr h]

/-- The variables of a bound are those of the other columns. -/
theorem bound_E' {P : String → Prop} {r : Row} {l : Nat} {vars : Nat → Expr}
    (hv : ∀ k : Nat, k < r.coef.length → k ≠ l → r.at k ≠ 0 → E P (vars k)) {e : Expr}
    (h : boundFromConstraint r l vars = some e) : E P e := by
  rw [bound_congr (v' := Function.update vars l (.cst 0)) (fun k hk => (Function.update_of_ne hk _ _).symm)] at h
  refine bound_E (fun k hk hz => ?_) h
  by_cases hkl : k = l
  · rw [hkl, Function.update_self]
    exact E_cst
  · rw [Function.update_of_ne hkl]
    exact hv k hk hkl hz

theorem divTerms_E' {P : String → Prop} {vars : Nat → Expr} {den : Int} : ∀ (cs : List Int) (i : Nat),
    (∀ k : Nat, k < cs.length → cs.getD k 0 ≠ 0 → E P (vars (i + k))) → ∀ e ∈ divTerms vars den cs i, E P e
  | [], _, _, e, he => by simp [divTerms] at he
  | c :: cs, i, h, e, he => by
    have ht : ∀ k : Nat, k < cs.length → cs.getD k 0 ≠ 0 → E P (vars (i + 1 + k)) := by
      intro k hk hz
      have := h (k + 1) (by simpa using hk) (by simpa using hz)
      rwa [show i + (k + 1) = i + 1 + k by omega] at this
    unfold divTerms at he
    split at he
    · exact divTerms_E' cs (i + 1) ht e he
    · rename_i hc
      simp only [List.mem_cons] at he
      rcases he with rfl | he
      · exact E_term (h 0 (by simp) (by simpa using hc))
      · exact divTerms_E' cs (i + 1) ht e he

theorem divExpr_E' {P : String → Prop} {vars : Nat → Expr} {d : DivDef}
    (hv : ∀ k : Nat, k < d.num.length → d.num.getD k 0 ≠ 0 → E P (vars k)) : E P (divExpr vars d) := by
  unfold divExpr
  refine E_bin (E_red fun e he => ?_)
  rw [List.mem_append] at he
  rcases he with he | he
  · exact divTerms_E' _ _ (fun k hk hz => by rw [Nat.zero_add]; exact hv k hk hz) e he
  · split at he
    · simp at he
    · simp only [List.mem_singleton] at he
      subst he
      exact E_cst

theorem divExprs_bef {nm : Names} {nIter nDiv k : Nat} {ok : Nat → Bool} (hok : ∀ i, ok i = true → i < k) :
    ∀ (ds : List DivDef) (aU : List Bool) (aE : List Expr), aU.length = aE.length →
    (∀ d ∈ ds, d.num.length ≤ nIter + nDiv + nm.nPar) →
    (∀ j, aU.getD j false = true → E (Bef nm k) (aE.getD j (.cst 0))) →
    ∀ j, (usableDivs nIter nDiv ok ds aU).getD j false = true → E (Bef nm k) ((divExprs nm nIter nDiv ds aE).getD j (.cst 0))
  | [], aU, aE, _, _, ha, j, hj => ha j hj
  | d :: ds, aU, aE, hl, hd, ha, j, hj => by
    rw [divExprs]
    rw [usableDivs] at hj
    refine divExprs_bef hok ds _ _ (by simp [hl]) (fun x hx => hd x (by simp [hx])) ?_ j hj
    intro j hj
    by_cases h1 : j < aU.length
    · rw [List.getD_append _ _ _ _ h1] at hj
      rw [List.getD_append _ _ _ _ (by omega)]
      exact ha j hj
    · rw [List.getD_append_right _ _ _ _ (by omega)] at hj
      rw [List.getD_append_right _ _ _ _ (by omega)]
      by_cases h2 : j - aU.length = 0
      · rw [h2, List.getD_cons_zero] at hj
        rw [← hl, h2, List.getD_cons_zero]
        refine divExpr_E' fun c hc hz => ?_
        rw [List.all_eq_true] at hj
        have := hj c (List.mem_range.2 hc)
        rw [Bool.or_eq_true, beq_iff_eq] at this
        have := this.resolve_left hz
        unfold colExpr
        by_cases hc1 : c < nIter
        · rw [if_pos hc1] at this ⊢
          exact E_name (Or.inl ⟨c, hok c this, rfl⟩)
        · rw [if_neg hc1] at this ⊢
          by_cases hc2 : c < nIter + nDiv
          · rw [if_pos hc2] at this ⊢
            exact ha _ this
          · rw [if_neg hc2]
            have := hd d (by simp)
            exact E_name (Or.inr ⟨_, by omega, rfl⟩)
      · rw [List.getD_eq_default _ _ (by simp; omega)] at hj
        cases hj

/-- The expression of a column that can be computed from the iterators before `k` has these variables. -/
theorem vars_bef {nm : Names} {D : Dom} {k : Nat} {ok : Nat → Bool} (hok : ∀ i, ok i = true → i < k)
    (hd : ∀ d ∈ D.divs, d.num.length ≤ D.total nm) {c : Nat} (hc : c < D.total nm) (hu : D.usable ok c = true) :
    E (Bef nm k) (D.vars nm c) := by
  unfold Dom.vars colExpr
  unfold Dom.usable at hu
  unfold Dom.total at hc hd
  by_cases h1 : c < D.nIter
  · rw [if_pos h1] at hu ⊢
    exact E_name (Or.inl ⟨c, hok c hu, rfl⟩)
  · rw [if_neg h1] at hu ⊢
    by_cases h2 : c < D.nIter + D.divs.length
    · rw [if_pos h2] at hu ⊢
      exact divExprs_bef hok D.divs [] [] rfl hd (fun j hj => by simp at hj) _ hu
    · rw [if_neg h2]
      exact E_name (Or.inr ⟨_, by omega, rfl⟩)

/-- The last value of a loop. -/
theorem upper_bef {cx : Ctx} (hsort : ∀ l, (cx.sort l).Perm l) {rows : List Row} {col k : Nat} {st : Option Stride}
    {vars : Nat → Expr} (h : ∀ r ∈ rows, r.isEq = false → r.at col ≠ 0 → ∀ c : Nat, c < r.coef.length → c ≠ col → r.at c ≠ 0 →
      E (Bef cx.nm k) (vars c)) : EO (Bef cx.nm k) (loopBound cx rows col false st vars) := by
  unfold loopBound
  dsimp only
  split
  · simp [EO, readsO]
  · refine E_red (t := .min) fun e he => ?_
    rw [(hsort _).mem_iff] at he
    unfold loopBounds at he
    rw [List.mem_filterMap] at he
    obtain ⟨r, hrm, hr⟩ := he
    rw [List.mem_filter] at hrm
    have hv := hrm.2
    unfold validBound Row.isUpper at hv
    simp only [Bool.and_eq_true, Bool.false_eq_true, if_false, Bool.not_eq_true', decide_eq_true_eq] at hv
    have hb : boundFromConstraint r col vars = some e := hr
    exact bound_E' (fun c hc hcl hz => h r hrm.1 hv.1.1.2 (by omega) c hc hcl hz) hb

/-- The first value, without a stride or with a constant offset. -/
theorem lower_bef {cx : Ctx} (hsort : ∀ l, (cx.sort l).Perm l) {rows : List Row} {col k : Nat} {st : Option Stride}
    (hst : ∀ s, st = some s → s.con = none)
    {vars : Nat → Expr} (h : ∀ r ∈ rows, r.isEq = false → r.at col ≠ 0 → ∀ c : Nat, c < r.coef.length → c ≠ col → r.at c ≠ 0 →
      E (Bef cx.nm k) (vars c)) : EO (Bef cx.nm k) (loopBound cx rows col true st vars) := by
  unfold loopBound
  dsimp only
  split
  · simp [EO, readsO]
  · refine E_red (t := .max) fun e he => ?_
    rw [(hsort _).mem_iff] at he
    unfold loopBounds at he
    rw [List.mem_filterMap] at he
    obtain ⟨r, hrm, hr⟩ := he
    rw [List.mem_filter] at hrm
    have hv := hrm.2
    unfold validBound Row.isLower at hv
    simp only [Bool.and_eq_true, if_true, Bool.not_eq_true', decide_eq_true_eq] at hv
    have hb : ∀ e, boundFromConstraint r col vars = some e → E (Bef cx.nm k) e := fun e hb =>
      bound_E' (fun c hc hcl hz => h r hrm.1 hv.1.1.2 (by omega) c hc hcl hz) hb
    unfold loopBoundElt at hr
    cases st with
    | none => exact hb e hr
    | some s =>
      simp only [hst s rfl, Option.map_eq_some_iff] at hr
      obtain ⟨e', h1, rfl⟩ := hr
      exact updLower_E (hb e' h1)

mutual
theorem reads_copy : ∀ e, readsE (copy e) = readsE e
  | .name _ => rfl
  | .cst _ => rfl
  | .term _ v => by rw [copy, readsE, readsE, reads_copy v]
  | .bin _ l _ => by rw [copy, readsE, readsE, reads_copy l]
  | .red _ es => by rw [copy, readsE, readsE, reads_copys es]
theorem reads_copys : ∀ es, readsEs (copyList es) = readsEs es
  | [] => rfl
  | e :: es => by rw [copyList, readsEs, readsEs, reads_copy e, reads_copys es]
end

theorem copy_E {P : String → Prop} {e : Expr} (h : E P e) : E P (copy e) := by
  unfold E at *
  rw [reads_copy]
  exact h

/-! ## Guards -/

/-- Tests around code assign nothing. -/
def Quiet (lo : Bool) (w : List Stmt → List Stmt) : Prop := ∀ b, setsS (w b) = setsS b ∧ steadys lo (w b) = steadys lo b

theorem wrap_quiet (o : ModOut) : Quiet lo o.wrap := by
  intro b
  cases o <;> simp [ModOut.wrap, setsS, sets, steadys, steady]

theorem foldr_quiet : ∀ os : List ModOut, Quiet lo (fun b => os.foldr ModOut.wrap b)
  | [] => fun b => ⟨rfl, rfl⟩
  | o :: os => fun b => by
    have h1 := wrap_quiet (lo := lo) o (os.foldr ModOut.wrap b)
    have h2 := foldr_quiet (lo := lo) os b
    exact ⟨h1.1.trans h2.1, h1.2.trans h2.2⟩

theorem insertGuard_quiet {cx : Ctx} {D : Dom} {L : Nat} {eqs : List (Nat × Row)} {strides : Nat → Option Stride} {sl : Nat}
    {g : List Stmt → List Stmt} (h : insertGuard cx D L eqs strides sl = some g) : Quiet lo g := by
  unfold insertGuard at h
  rw [Option.bind_eq_bind, Option.bind_eq_some_iff] at h
  obtain ⟨⟨copy, outs⟩, -, h⟩ := h
  dsimp only at h
  rw [Option.some.injEq] at h
  subst h
  intro b
  have h1 := foldr_quiet (lo := lo) outs (if (guardEqns cx D L copy).isEmpty then b else [.guard (cx.gsort (guardEqns cx D L copy)) b])
  refine ⟨h1.1.trans ?_, h1.2.trans ?_⟩
  · split <;> simp [setsS, sets]
  · split <;> simp [steadys, steady]

/-! ## Loops -/

/-- What is put around the code of level `L`: it assigns the iterator of the level, and its loop, if there is one,
has a last value with earlier variables. -/
def Fix (lo : Bool) (nm : Names) (L : Nat) (w : List Stmt → List Stmt) : Prop := ∀ b, steadys lo b = true →
  (∀ x ∈ setsS b, ∃ i, L ≤ i ∧ x = nm.at_ i) → steadys lo (w b) = true ∧ ∀ x ∈ setsS (w b), ∃ i, L - 1 ≤ i ∧ x = nm.at_ i

theorem Fix.of_quiet {nm : Names} {L : Nat} {w : List Stmt → List Stmt} (h : Quiet lo w) : Fix lo nm L w := by
  intro b hb hs
  rw [(h b).1, (h b).2]
  exact ⟨hb, fun x hx => by obtain ⟨i, hi, he⟩ := hs x hx; exact ⟨i, by omega, he⟩⟩

theorem Fix.quiet {nm : Names} {L : Nat} {w g : List Stmt → List Stmt} (h : Fix lo nm L w) (hg : Quiet lo g) :
    Fix lo nm L (fun b => g (w b)) := by
  intro b hb hs
  dsimp only
  rw [(hg (w b)).1, (hg (w b)).2]
  exact h b hb hs

theorem fix_assign {cx : Ctx} {L : Nat} {e : Expr} : Fix lo cx.nm L (assign cx (L - 1) e) := by
  intro b hb hs
  have hx : ∀ x ∈ setsS b, ∃ i, L - 1 ≤ i ∧ x = cx.nm.at_ i := fun x hx => by
    obtain ⟨i, hi, he⟩ := hs x hx; exact ⟨i, by omega, he⟩
  unfold assign
  split
  · simp only [steadys, steady, Bool.true_and, Bool.and_true, setsS, sets, List.append_nil, List.cons_append, List.nil_append,
      List.mem_cons]
    exact ⟨hb, fun x h => h.elim (fun e => ⟨L - 1, le_refl _, e⟩) (hx x)⟩
  · simp only [steadys, steady, Bool.true_and, setsS, sets, List.cons_append, List.nil_append, List.mem_cons]
    exact ⟨hb, fun x h => h.elim (fun e => ⟨L - 1, le_refl _, e⟩) (hx x)⟩

theorem fix_for {nm : Names} (hn : NamesOK nm) {L : Nat} (hL : 0 < L) {lb ub : Option Expr} {k : Int} (hu : EO (Bef nm (L - 1)) ub)
    (hl : lo = true → EO (Bef nm (L - 1)) lb) : Fix lo nm L (fun b => [.for_ (nm.at_ (L - 1)) lb ub k b]) := by
  intro b hb hs
  have hit : ∀ i, L - 1 ≥ i → ∀ j, L ≤ j → nm.at_ i ≠ nm.at_ j := fun i hi j hj he => by
    have := hn.inj _ _ he; omega
  have key : ∀ o, EO (Bef nm (L - 1)) o → ∀ x ∈ readsO o, x ≠ nm.at_ (L - 1) ∧ x ∉ setsS b := by
    intro o ho x hx
    refine ⟨?_, fun hm => ?_⟩
    · rcases ho x hx with ⟨i, hi, rfl⟩ | ⟨j, hj, rfl⟩
      · intro he
        have := hn.inj _ _ he
        omega
      · exact fun he => hn.par _ j hj he.symm
    · obtain ⟨j, hj, he⟩ := hs x hm
      rcases ho x hx with ⟨i, hi, rfl⟩ | ⟨m, hm', rfl⟩
      · exact hit i (by omega) j hj he
      · exact hn.par j m hm' he.symm
  simp only [steadys, steady, Bool.and_true, setsS, sets, List.append_nil, Bool.and_eq_true, decide_eq_true_eq, List.mem_cons]
  refine ⟨⟨⟨⟨fun hm => ?_, key ub hu⟩, fun h => key lb (hl h)⟩, hb⟩, fun x hx => ?_⟩
  · obtain ⟨j, hj, he⟩ := hs _ hm
    exact hit _ (le_refl _) j hj he
  · rcases hx with rfl | hx
    · exact ⟨L - 1, le_refl _, rfl⟩
    · obtain ⟨j, hj, he⟩ := hs x hx
      exact ⟨j, by omega, he⟩

/-- The bounds of column `col` can be computed from the iterators in `ok`, unless the column has a defining
equality or a defining pair of inequalities. -/
structure DomBef (nm : Names) (ok : Nat → Bool) (col : Nat) (D : Dom) : Prop where
  len : ∀ r ∈ D.rows, r.coef.length = D.total nm
  divs : ∀ d ∈ D.divs, d.num.length ≤ D.total nm
  use : D.definingEquality D.rows col = none → D.definingInequalities nm.nPar D.rows col = none →
    ∀ r ∈ D.rows, r.isEq = false → r.at col ≠ 0 → ∀ c, c ≠ col → r.at c ≠ 0 → D.usable ok c = true

theorem bound_bef {nm : Names} {D : Dom} {col : Nat} (hcol : col < D.nIter) {u : Row} (hlen : u.coef.length = D.total nm)
    (hz : ∀ c, c < D.nIter + D.divs.length → col < c → u.at c = 0) {e : Expr}
    (h : boundFromConstraint u col (D.vars nm) = some e) : E (Bef nm col) e := by
  refine bound_E' (fun c hc hcl h0 => ?_) h
  unfold Dom.total at hlen
  unfold Dom.vars colExpr
  by_cases h1 : c < col
  · rw [if_pos (by omega)]
    exact E_name (Or.inl ⟨c, h1, rfl⟩)
  · have : ¬ c < D.nIter + D.divs.length := fun h => h0 (hz c h (by omega))
    rw [if_neg (by omega), if_neg this]
    exact E_name (Or.inr ⟨_, by omega, rfl⟩)

theorem insertEquation_fix {cx : Ctx} (hn : NamesOK cx.nm) {D : Dom} {L : Nat} (hL : 0 < L) (hL' : L ≤ D.nIter)
    {eqs : List (Nat × Row)} {strides : Nat → Option Stride} {u : Row} {l : Option Row} (hlen : u.coef.length = D.total cx.nm)
    (hz : ∀ c, c < D.nIter + D.divs.length → L - 1 < c → u.at c = 0)
    (hl : ∀ r, l = some r → r.coef.length = D.total cx.nm ∧ ∀ c, c < D.nIter + D.divs.length → L - 1 < c → r.at c = 0) {s : Step}
    (h : insertEquation cx D L eqs strides u l = some s) : Fix lo cx.nm L s.wrap := by
  unfold insertEquation at h
  dsimp only at h
  split at h
  · simp only [Option.bind_eq_bind, Option.bind_eq_some_iff] at h
    obtain ⟨e2, h2, e1, h1, hx⟩ := h
    simp only [Option.some.injEq] at hx
    subst hx
    have h3 : E (Bef cx.nm (L - 1)) e2 := bound_bef (by omega) hlen hz h2
    refine fix_for hn hL (ub := some e2) h3 fun _ => ?_
    cases l with
    | none =>
      simp only [Option.some.injEq] at h1
      subst h1
      exact copy_E h3
    | some r => exact bound_bef (by omega) (hl r rfl).1 (hl r rfl).2 h1
  · simp only [Option.bind_eq_bind, Option.bind_eq_some_iff] at h
    obtain ⟨o, ho, h⟩ := h
    have main : ∀ {s : Step}, ((boundFromConstraint u (L - 1) (D.vars cx.nm)).bind fun e =>
        match l with
        | some _ => some ⟨true, fun body => o.wrap (assign cx (L - 1) e body), none, true⟩
        | none =>
          if equalAllow cx L (eqType D cx.nm.nPar u (L - 1)) = true then
            some ⟨true, o.wrap, some u, false⟩
          else some ⟨true, fun body => o.wrap (assign cx (L - 1) e body), some u, true⟩) = some s → Fix lo cx.nm L s.wrap := by
      intro s h
      rw [Option.bind_eq_some_iff] at h
      obtain ⟨e, he, h⟩ := h
      have hw : Fix lo cx.nm L (fun body => o.wrap (assign cx (L - 1) e body)) := fix_assign.quiet (wrap_quiet o)
      cases l with
      | some lo =>
        simp only [Option.some.injEq] at h
        subst h
        exact hw
      | none =>
        dsimp only at h
        split at h
        · simp only [Option.some.injEq] at h
          subst h
          exact Fix.of_quiet (wrap_quiet o)
        · simp only [Option.some.injEq] at h
          subst h
          exact hw
    cases o with
    | unsat =>
      simp only [Option.some.injEq] at h
      subst h
      exact Fix.of_quiet (fun b => ⟨rfl, rfl⟩)
    | ok => exact main h
    | test q => exact main h

theorem insertFor_fix {cx : Ctx} (hsort : ∀ l, (cx.sort l).Perm l) (hn : NamesOK cx.nm) {icmp : Int → Int → Int} {D : Dom}
    {L : Nat} (hL : 0 < L) {otl : Bool} {st : Option Stride} {ok : Nat → Bool} (hok : ∀ i, ok i = true → i < L - 1)
    (hD : DomBef cx.nm ok (L - 1) D) (h0 : D.definingEquality D.rows (L - 1) = none)
    (h00 : D.definingInequalities cx.nm.nPar D.rows (L - 1) = none) {s : Step} 
    (hst : lo = true → ∀ s, st = some s → s.con = none) (h : insertFor cx icmp D.rows L otl st (D.vars cx.nm) = some s) :
    Fix lo cx.nm L s.wrap := by
  have h2 := upper_bef hsort (rows := D.rows) (col := L - 1) (k := L - 1) (st := st) (vars := D.vars cx.nm)
    (fun r hr h1 h2 c hc hcl hz => vars_bef hok hD.divs (by rw [← hD.len r hr]; exact hc) (hD.use h0 h00 r hr h1 h2 c hcl hz))
  have h3 := fun hlo => lower_bef hsort (rows := D.rows) (col := L - 1) (k := L - 1) (st := st) (hst hlo) (vars := D.vars cx.nm)
    (fun r hr h1 h2 c hc hcl hz => vars_bef hok hD.divs (by rw [← hD.len r hr]; exact hc) (hD.use h0 h00 r hr h1 h2 c hcl hz))
  unfold insertFor at h
  dsimp only at h
  generalize loopBound cx D.rows (L - 1) true st (D.vars cx.nm) = e1 at h h3
  generalize loopBound cx D.rows (L - 1) false st (D.vars cx.nm) = e2 at h h2
  split at h
  · simp only [Option.some.injEq] at h
    subst h
    exact Fix.of_quiet (fun b => ⟨rfl, rfl⟩)
  · split at h
    · cases h
    · split at h
      · cases e1 with
        | none => cases h
        | some a =>
          cases e2 with
          | none => cases h
          | some b =>
            simp only [Option.some.injEq] at h
            subst h
            intro body hb hs
            refine fix_assign _ ?_ ?_
            · simpa [steadys, steady] using hb
            · simpa [setsS, sets] using hs
      · simp only [Option.some.injEq] at h
        subst h
        exact fix_for hn hL h2 h3

theorem loopStep_fix {cx : Ctx} (hsort : ∀ l, (cx.sort l).Perm l) (hn : NamesOK cx.nm) {icmp : Int → Int → Int} {D : Dom} {L : Nat}
    {otl : Bool} {eqs : List (Nat × Row)} {strides : Nat → Option Stride} {ok : Nat → Bool} (hok : ∀ i, ok i = true → i < L - 1)
    (hD : 0 < L → L ≤ D.nIter → DomBef cx.nm ok (L - 1) D)
    (hst : 0 < L → lo = true → ∀ s, strides (L - 1) = some s → s.con = none) {s : Step}
    (h : loopStep cx icmp D L otl eqs strides = some s) : Fix lo cx.nm L s.wrap := by
  unfold loopStep at h
  split at h
  · rename_i hL
    have hD := hD hL.1 hL.2
    split at h
    · rename_i u hu
      obtain ⟨hu1, -, hu3⟩ := definingEquality_mem hu
      exact insertEquation_fix hn hL.1 hL.2 (hD.len u hu1) hu3 (by simp) h
    · rename_i h0
      split at h
      · rename_i u l hu
        obtain ⟨hu1, hl1, -, hu4⟩ := definingInequalities_mem (by omega) hu
        refine insertEquation_fix hn hL.1 hL.2 (hD.len u hu1) hu4 ?_ h
        intro r hr
        rw [Option.some.injEq] at hr
        subst hr
        refine ⟨hD.len l hl1, fun c hc hcl => ?_⟩
        have hp : findPair D cx.nm.nPar (L - 1) D.rows = some (u, l) := by
          unfold Dom.definingInequalities at hu
          split at hu
          · cases hu
          · rename_i hp
            split at hu
            · cases hu
            · rw [← hu]
              exact hp
        rw [(findPair_spec D cx.nm.nPar (L - 1) (by omega) _ _ _ hp).2.2.2.2.2.2.1 c (by omega), hu4 c hc hcl]
        rfl
      · rename_i h00
        exact insertFor_fix hsort hn hL.1 hok hD h0 h00 (hst hL.1) h
  · simp only [Option.some.injEq] at h
    subst h
    exact Fix.of_quiet (fun b => ⟨rfl, rfl⟩)

theorem insertBlock_quiet (cx : Ctx) (eqs : List (Nat × Row)) (n : Nat) : ∀ block : List Nat,
    setsS (insertBlock cx eqs block n) = [] ∧ steadys lo (insertBlock cx eqs block n) = true
  | [] => ⟨rfl, rfl⟩
  | b :: block => by
    have ih := insertBlock_quiet (lo := lo) cx eqs n block
    unfold insertBlock at ih ⊢
    rw [List.map_cons]
    simp only [setsS, sets, steadys, steady, ih.1, ih.2, List.append_nil, Bool.and_true, and_self]

mutual
/-- The bounds of each loop of the tree can be computed from the iterators of the loops around it; with `lo`, no stride
has an offset given by a constraint. -/
def Early (lo : Bool) (nm : Names) (L : Nat) : Loop → Prop
  | .mk D st _ _ inner => (0 < L → L ≤ D.nIter → DomBef nm (fun i => decide (i < L - 1)) (L - 1) D) ∧
      (lo = true → ∀ s, st = some s → s.con = none) ∧ Earlys lo nm (L + 1) inner
/-- The same for lists of loops. -/
def Earlys (lo : Bool) (nm : Names) (L : Nat) : List Loop → Prop
  | [] => True
  | l :: ls => Early lo nm L l ∧ Earlys lo nm L ls
end

mutual
theorem insertLoop_steady {cx : Ctx} (hsort : ∀ l, (cx.sort l).Perm l) (hn : NamesOK cx.nm) {icmp : Int → Int → Int} :
    ∀ (l : Loop) (L : Nat) (eqs : List (Nat × Row)) (strides : Nat → Option Stride), Early lo cx.nm L l →
    ∀ {ss}, insertLoop cx icmp L eqs strides l = some ss →
      steadys lo ss = true ∧ ∀ x ∈ setsS ss, ∃ i, L - 1 ≤ i ∧ x = cx.nm.at_ i
  | .mk D st otl block inner, L, eqs, strides, hl, ss, h => by
    rw [Early] at hl
    unfold insertLoop at h
    dsimp only at h
    rw [Option.bind_eq_bind, Option.bind_eq_some_iff] at h
    obtain ⟨g, hg, h⟩ := h
    rw [Option.bind_eq_bind, Option.bind_eq_some_iff] at h
    obtain ⟨s, hs, h⟩ := h
    have hf := (loopStep_fix (ok := fun i => decide (i < L - 1)) hsort hn (by simp) hl.1 (by
      intro h0 hlo s' hs'
      rw [if_pos h0, Function.update_self] at hs'
      exact hl.2.1 hlo s' hs') hs).quiet (insertGuard_quiet hg)
    split at h
    · rw [Option.some.injEq] at h
      subst h
      exact hf [] rfl (by simp [setsS])
    · rw [Option.bind_eq_bind, Option.bind_eq_some_iff] at h
      obtain ⟨rest, hr, h⟩ := h
      rw [Option.some.injEq] at h
      subst h
      obtain ⟨r1, r2⟩ := insertLoops_steady hsort hn inner (L + 1) _ _ hl.2.2 hr
      have hb := insertBlock_quiet (lo := lo) cx (recordEq L eqs s.rec_) (L + (if isEquality D L then 1 else 0) - 1) block
      refine hf _ ?_ ?_
      · rw [steadys_append, hb.2, r1]; rfl
      · rw [setsS_append, hb.1, List.nil_append]
        exact r2
theorem insertLoops_steady {cx : Ctx} (hsort : ∀ l, (cx.sort l).Perm l) (hn : NamesOK cx.nm) {icmp : Int → Int → Int} :
    ∀ (ls : List Loop) (L : Nat) (eqs : List (Nat × Row)) (strides : Nat → Option Stride), Earlys lo cx.nm L ls →
    ∀ {ss}, insertLoops cx icmp L eqs strides ls = some ss →
      steadys lo ss = true ∧ ∀ x ∈ setsS ss, ∃ i, L - 1 ≤ i ∧ x = cx.nm.at_ i
  | [], L, eqs, strides, _, ss, h => by
    rw [insertLoops, Option.some.injEq] at h
    subst h
    exact ⟨rfl, by simp [setsS]⟩
  | l :: ls, L, eqs, strides, hl, ss, h => by
    rw [Earlys] at hl
    rw [insertLoops, Option.bind_eq_bind, Option.bind_eq_some_iff] at h
    obtain ⟨a, ha, h⟩ := h
    rw [Option.bind_eq_some_iff] at h
    obtain ⟨b, hb, h⟩ := h
    rw [Option.some.injEq] at h
    subst h
    obtain ⟨a1, a2⟩ := insertLoop_steady hsort hn l L eqs strides hl.1 ha
    obtain ⟨b1, b2⟩ := insertLoops_steady hsort hn ls L eqs strides hl.2 hb
    refine ⟨by rw [steadys_append, a1, b1]; rfl, fun x hx => ?_⟩
    rw [setsS_append, List.mem_append] at hx
    exact hx.elim (a2 x) (b2 x)
end

/-! ## The hypotheses of C25 -/

open Verif.Props.ClastExec

/-- Columns that can be computed from some iterators can be computed from more. -/
theorem usableDivs_mono {nIter nDiv : Nat} {ok ok' : Nat → Bool} (h : ∀ i, ok i = true → ok' i = true) :
    ∀ (ds : List DivDef) (a a' : List Bool), a.length = a'.length → (∀ j, a.getD j false = true → a'.getD j false = true) →
    ∀ j, (usableDivs nIter nDiv ok ds a).getD j false = true → (usableDivs nIter nDiv ok' ds a').getD j false = true
  | [], a, a', _, ha, j, hj => ha j hj
  | d :: ds, a, a', hl, ha, j, hj => by
    rw [usableDivs] at hj ⊢
    refine usableDivs_mono h ds _ _ (by simp [hl]) ?_ j hj
    intro j hj
    by_cases h1 : j < a.length
    · rw [List.getD_append _ _ _ _ h1] at hj
      rw [List.getD_append _ _ _ _ (by omega)]
      exact ha j hj
    · rw [List.getD_append_right _ _ _ _ (by omega)] at hj
      rw [List.getD_append_right _ _ _ _ (by omega)]
      by_cases h2 : j - a.length = 0
      · rw [h2, List.getD_cons_zero] at hj
        rw [← hl, h2, List.getD_cons_zero]
        rw [List.all_eq_true] at hj ⊢
        intro c hc
        have := hj c hc
        rw [Bool.or_eq_true] at this ⊢
        refine this.imp id fun hh => ?_
        by_cases hc1 : c < nIter
        · rw [if_pos hc1] at hh ⊢
          exact h c hh
        · rw [if_neg hc1] at hh ⊢
          by_cases hc2 : c < nIter + nDiv
          · rw [if_pos hc2] at hh ⊢
            exact ha _ hh
          · rw [if_neg hc2]
      · rw [List.getD_eq_default _ _ (by simp; omega)] at hj
        cases hj

theorem usable_mono {D : Dom} {ok ok' : Nat → Bool} (h : ∀ i, ok i = true → ok' i = true) {c : Nat}
    (hu : D.usable ok c = true) : D.usable ok' c = true := by
  unfold Dom.usable at hu ⊢
  by_cases h1 : c < D.nIter
  · rw [if_pos h1] at hu ⊢
    exact h c hu
  · rw [if_neg h1] at hu ⊢
    by_cases h2 : c < D.nIter + D.divs.length
    · rw [if_pos h2] at hu ⊢
      exact usableDivs_mono h _ _ _ rfl (fun j hj => hj) _ hu
    · rw [if_neg h2]

mutual
/-- The trees of C25 meet the condition. -/
theorem wf_early {cx : Ctx} {p : Nat → Int} : ∀ {L ok eqs strides K l}, WfLoop cx p L ok eqs strides K l →
    (∀ c, ok c = true → c < L - 1) → Early false cx.nm L l
  | _, _, _, _, _, _, .root hD hG hi, hok => by
    rw [Early]
    exact ⟨fun h => by omega, nofun, wfs_early hi hok⟩
  | L, ok, _, _, _, _, .scan (D := D) h0 hL hst hG hS hi, hok => by
    rw [Early]
    refine ⟨fun _ _ => ⟨hG.len, fun d hd => (hG.faithful d hd).2.2.2, fun h1 h2 r hr h3 h4 c h5 h6 => ?_⟩, nofun, wfs_early hi ?_⟩
    · exact usable_mono (fun i hi => decide_eq_true (hok i hi)) ((hS.2.2 h1 h2).use r hr h3 h4 c h5 h6)
    · intro c hc
      unfold nextOk at hc
      by_cases he : c = L - 1
      · omega
      · rw [Function.update_of_ne he] at hc
        have := hok c hc
        omega
  | _, _, _, _, _, _, .leaf h0 hL hG, hok => by
    rw [Early]
    exact ⟨fun _ h => by omega, nofun, trivial⟩
theorem wfs_early {cx : Ctx} {p : Nat → Int} : ∀ {L ok eqs strides K ls}, WfLoops cx p L ok eqs strides K ls →
    (∀ c, ok c = true → c < L - 1) → Earlys false cx.nm L ls
  | _, _, _, _, _, _, .nil, _ => trivial
  | _, _, _, _, _, _, .cons h1 h2, hok => ⟨wf_early h1 hok, wfs_early h2 hok⟩
end

end Verif.Steady
