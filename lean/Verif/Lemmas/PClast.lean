import Verif.Lemmas.PStmt
import Verif.Props.Expr

/-!
# What the clast construction builds can be printed
-/

namespace Verif.PClast
open Verif.CText Verif.Clast Verif.ClastGen Verif.Bound Verif.PPrint Verif.PLex Verif.PExpr Verif.PGlue Verif.PStmt
open Verif.IntOps Verif.Props.Expr

/-- Expressions that can stand after a coefficient. -/
def atom (v : Expr) : Bool := ok v && isMul v && isPure v && !negStart v && !group v && idents v

theorem atom_iff {v : Expr} : atom v = true ↔ ok v = true ∧ isMul v = true ∧ isPure v = true ∧
    negStart v = false ∧ group v = false ∧ idents v = true := by
  simp only [atom, Bool.and_eq_true, Bool.not_eq_true', and_assoc]

theorem atom_name {s : String} (h : name s = true) : atom (.name s) = true := by
  rw [atom_iff]
  refine ⟨by simp [ok], by simp [isMul], by simp [isPure], by simp [negStart], rfl, ?_⟩
  simpa [idents] using name_ident h

/-- An element of a sum: a term with a coefficient over an atom, or a constant that is not 0. -/
def elt (e : Expr) : Bool := okE e && isTerm e && decide (coef e ≠ 0) && isMul e

theorem elt_iff {e : Expr} : elt e = true ↔ ok e = true ∧ idents e = true ∧ isTerm e = true ∧ coef e ≠ 0 ∧
    isMul e = true := by
  simp only [elt, okE, Bool.and_eq_true, decide_eq_true_eq, and_assoc]

theorem elt_term {c : Int} {v : Expr} (hc : c ≠ 0) (hv : atom v = true) : elt (.term c v) = true := by
  rw [atom_iff] at hv
  obtain ⟨h1, h2, h3, h4, h5, h6⟩ := hv
  rw [elt_iff]
  refine ⟨by simp [ok, h1, h2, h3, h4], by simpa [idents] using h6, rfl, hc, ?_⟩
  simp [isMul, h2]

theorem okE_term {c : Int} {v : Expr} (hv : atom v = true) : okE (.term c v) = true := by
  rw [atom_iff] at hv
  obtain ⟨h1, h2, h3, h4, h5, h6⟩ := hv
  simp [okE, ok, h1, h2, h3, h4, idents, h6]

theorem elt_cst {c : Int} (hc : c ≠ 0) : elt (.cst c) = true := by
  rw [elt_iff]
  exact ⟨by simp [ok], by simp [idents], rfl, hc, by simp [isMul]⟩

theorem okE_cst (c : Int) : okE (.cst c) = true := by simp [okE, ok, idents]

theorem okTail_elts : ∀ {es : List Expr}, (∀ e ∈ es, elt e = true) → okTail es = true ∧ identss es = true
  | [], _ => ⟨by simp [okTail], by simp [identss]⟩
  | e :: es, h => by
    have he := elt_iff.1 (h e (by simp))
    have ih := okTail_elts (es := es) (fun x hx => h x (by simp [hx]))
    simp [okTail, identss, he.1, he.2.1, he.2.2.1, he.2.2.2.1, he.2.2.2.2, ih.1, ih.2]

theorem okE_sum {es : List Expr} (hn : es ≠ []) (h : ∀ e ∈ es, elt e = true) : okE (.red .sum es) = true := by
  cases es with
  | nil => exact absurd rfl hn
  | cons e es =>
    have he := elt_iff.1 (h e (by simp))
    have ih := okTail_elts (es := es) (fun x hx => h x (by simp [hx]))
    simp [okE, ok, idents, identss, he.1, he.2.1, ih.1, ih.2]

theorem sum_operand {es : List Expr} (hn : es ≠ []) (h : ∀ e ∈ es, elt e = true) :
    group (.red .sum es) = true ∨ isMul (.red .sum es) = true := by
  match es, hn, h with
  | [e], _, h => exact Or.inr (by simpa [isMul] using (elt_iff.1 (h e (by simp))).2.2.2.2)
  | e :: e2 :: es, _, _ => exact Or.inl (by simp [group])

theorem okE_fdiv {e : Expr} (d : Int) (h : okE e = true) : okE (.bin .fdiv e d) = true := by
  simp only [okE, Bool.and_eq_true] at h
  simp [okE, ok, idents, h.1, h.2]

theorem okE_cdiv {e : Expr} (d : Int) (h : okE e = true) : okE (.bin .cdiv e d) = true := by
  simp only [okE, Bool.and_eq_true] at h
  simp [okE, ok, idents, h.1, h.2]

theorem okE_div {e : Expr} (d : Int) (h : okE e = true) (hm : group e = true ∨ isMul e = true) :
    okE (.bin .div e d) = true := by
  simp only [okE, Bool.and_eq_true] at h
  simp [okE, ok, idents, h.1, h.2, hm]

theorem okE_mod {e : Expr} (d : Int) (h : okE e = true) (hm : group e = true ∨ isMul e = true) :
    okE (.bin .mod e d) = true := by
  simp only [okE, Bool.and_eq_true] at h
  simp [okE, ok, idents, h.1, h.2, hm]

theorem atom_fdiv {e : Expr} (d : Int) (h : okE e = true) : atom (.bin .fdiv e d) = true := by
  simp only [okE, Bool.and_eq_true] at h
  rw [atom_iff]
  exact ⟨by simp [ok, h.1], by simp [isMul], by simp [isPure], by simp [negStart], rfl, by simp [idents, h.2]⟩

theorem okE_list : ∀ {es : List Expr}, (∀ e ∈ es, okE e = true) → oks es = true ∧ identss es = true
  | [], _ => ⟨by simp [oks], by simp [identss]⟩
  | e :: es, h => by
    have he := h e (by simp)
    simp only [okE, Bool.and_eq_true] at he
    have ih := okE_list (es := es) (fun x hx => h x (by simp [hx]))
    simp [oks, identss, he.1, he.2, ih.1, ih.2]

theorem okE_mm {t : RedType} (ht : t ≠ .sum) {es : List Expr} (hn : es ≠ []) (h : ∀ e ∈ es, okE e = true) :
    okE (.red t es) = true := by
  cases es with
  | nil => exact absurd rfl hn
  | cons e es =>
    have ih := okE_list h
    cases t <;> first | exact absurd rfl ht | simpa [okE, ok, oks, idents] using ih

/-! ## Kinds of expressions -/

/-- Predicates on expressions that are kept by what the clast construction does: `E` for whole expressions,
    `A` for what stands after a coefficient, `T` for the terms of sums, `D` for divisors. -/
structure Kit where
  E : Expr → Bool
  A : Expr → Bool
  T : Expr → Bool
  D : Int → Bool
  D_pos : ∀ {d}, 0 < d → D d = true
  A_name : ∀ {s}, name s = true → A (.name s) = true
  A_zero : A (.cst 0) = true
  T_term : ∀ {c v}, c ≠ 0 → A v = true → T (.term c v) = true
  E_term : ∀ {c v}, A v = true → E (.term c v) = true
  T_cst : ∀ {c}, c ≠ 0 → T (.cst c) = true
  E_cst : ∀ c, E (.cst c) = true
  E_sum : ∀ {es}, es ≠ [] → (∀ e ∈ es, T e = true) → E (.red .sum es) = true
  E_fdiv : ∀ {e d}, D d = true → E e = true → E (.bin .fdiv e d) = true
  E_cdiv : ∀ {e d}, D d = true → E e = true → E (.bin .cdiv e d) = true
  E_div : ∀ {es d}, D d = true → es ≠ [] → (∀ e ∈ es, T e = true) → E (.bin .div (.red .sum es) d) = true
  E_divc : ∀ {c d}, D d = true → E (.bin .div (.cst c) d) = true
  E_mod : ∀ {es d}, D d = true → es ≠ [] → (∀ e ∈ es, T e = true) → E (.bin .mod (.red .sum es) d) = true
  A_fdiv : ∀ {e d}, D d = true → E e = true → A (.bin .fdiv e d) = true
  E_mm : ∀ {t es}, t ≠ .sum → es ≠ [] → (∀ e ∈ es, E e = true) → E (.red t es) = true

/-- What is printed right in C. -/
def cKit : Kit where
  E := okE
  A := atom
  T := elt
  D := fun _ => true
  D_pos _ := rfl
  A_name := atom_name
  A_zero := by decide
  T_term := elt_term
  E_term := okE_term
  T_cst := elt_cst
  E_cst := okE_cst
  E_sum := okE_sum
  E_fdiv _ h := okE_fdiv _ h
  E_cdiv _ h := okE_cdiv _ h
  E_div _ h1 h2 := okE_div _ (okE_sum h1 h2) (sum_operand h1 h2)
  E_divc _ := okE_div _ (okE_cst _) (Or.inr (by simp [isMul]))
  E_mod _ h1 h2 := okE_mod _ (okE_sum h1 h2) (sum_operand h1 h2)
  A_fdiv _ h := atom_fdiv _ h
  E_mm ht h1 h2 := okE_mm ht h1 h2

/-- Both sides of an equation. -/
def Kit.Q (K : Kit) (q : Eqn) : Bool := K.E q.lhs && K.E q.rhs

/-- A bound, if there is one. -/
def Kit.O (K : Kit) : Option Expr → Bool
  | some e => K.E e
  | none => true

mutual
/-- All expressions of a statement are of the kind, names are identifiers, strides positive. -/
def Kit.S (K : Kit) (nm : Nat → String) : Stmt → Bool
  | .ass x e => name x && K.E e
  | .user k args => name (nm k) && args.all K.E
  | .block body => K.Ss nm body
  | .guard qs body => !qs.isEmpty && qs.all (fun (q : Eqn) => K.E q.lhs && K.E q.rhs) && K.Ss nm body
  | .for_ it lb ub s body => name it && K.O lb && K.O ub && decide (0 < s) && K.Ss nm body
/-- All of them. -/
def Kit.Ss (K : Kit) (nm : Nat → String) : List Stmt → Bool
  | [] => true
  | s :: ss => K.S nm s && K.Ss nm ss
end

theorem cKit_E : cKit.E = okE := rfl

theorem cKit_O (o : Option Expr) : cKit.O o = okO o := by cases o <;> rfl

mutual
theorem cKit_S (nm : Nat → String) : ∀ s, cKit.S nm s = okS nm s
  | .ass x e => by simp [Kit.S, okS, cKit_E]
  | .user k args => by simp [Kit.S, okS, cKit_E]
  | .block body => by simp [Kit.S, okS, cKit_Ss nm body]
  | .guard qs body => by simp [Kit.S, okS, cKit_Ss nm body, cKit_E]
  | .for_ it lb ub s body => by simp [Kit.S, okS, cKit_Ss nm body, cKit_O]
theorem cKit_Ss (nm : Nat → String) : ∀ ss, cKit.Ss nm ss = okSs nm ss
  | [] => by simp [Kit.Ss, okSs]
  | s :: ss => by simp [Kit.Ss, okSs, cKit_S nm s, cKit_Ss nm ss]
end

variable {K : Kit}

/-! ## Bounds -/

theorem boundTerms_elt {neg : Bool} {l : Nat} {vars : Nat → Expr} (hv : ∀ i, K.A (vars i) = true) :
    ∀ (cs : List Int) (i : Nat), ∀ e ∈ boundTerms neg l vars cs i, K.T e = true
  | [], _, e, he => by simp [boundTerms] at he
  | c :: cs, i, e, he => by
    unfold boundTerms at he
    split at he
    · exact boundTerms_elt hv cs (i + 1) e he
    · rename_i hc
      simp only [List.mem_cons] at he
      rcases he with rfl | he
      · refine K.T_term ?_ (hv i)
        have : c ≠ 0 := by rintro rfl; exact hc (Or.inr rfl)
        split <;> omega
      · exact boundTerms_elt hv cs (i + 1) e he

theorem sgn_pos (c : Int) : 0 < sgn c ↔ 0 < c := by
  unfold sgn
  split <;> first | (split <;> simp <;> omega) | (simp; omega)

theorem sgn_ne {c : Int} (h : sgn c ≠ 0) : c ≠ 0 := by rintro rfl; exact h rfl

theorem bound_ok {r : Row} {l : Nat} {vars : Nat → Expr} (hv : ∀ i, K.A (vars i) = true) {e : Expr}
    (h : boundFromConstraint r l vars = some e) : K.E e = true := by
  unfold boundFromConstraint at h
  dsimp only at h
  split at h
  · cases h
  · rename_i ha0
    have hden : K.D (if decide (sgn (r.at l) > 0) = true then r.at l else -r.at l) = true := by
      apply K.D_pos
      have h1 := sgn_ne ha0
      have h2 := sgn_pos (r.at l)
      split
      · rename_i h3; exact h2.1 (by simpa using h3)
      · rename_i h3
        have : ¬ 0 < r.at l := fun h4 => h3 (by simpa using h2.2 h4)
        omega
    have key : ∀ num : Int, boundTerms (decide (sgn (r.at l) > 0)) l vars r.coef 0 ≠ [] →
        ∀ e ∈ (if sgn num ≠ 0 then boundTerms (decide (sgn (r.at l) > 0)) l vars r.coef 0 ++ [.cst num]
          else boundTerms (decide (sgn (r.at l) > 0)) l vars r.coef 0), K.T e = true := by
      intro num _ e he
      split at he
      · rename_i hs
        rw [List.mem_append] at he
        rcases he with he | he
        · exact boundTerms_elt hv _ _ e he
        · simp only [List.mem_singleton] at he
          subst he
          exact K.T_cst (sgn_ne hs)
      · exact boundTerms_elt hv _ _ e he
    have key2 : ∀ num : Int, boundTerms (decide (sgn (r.at l) > 0)) l vars r.coef 0 ≠ [] →
        (if sgn num ≠ 0 then boundTerms (decide (sgn (r.at l) > 0)) l vars r.coef 0 ++ [.cst num]
          else boundTerms (decide (sgn (r.at l) > 0)) l vars r.coef 0) ≠ [] := by
      intro num hn
      split
      · simp
      · exact hn
    split at h
    · rename_i hne
      have hne' : boundTerms (decide (sgn (r.at l) > 0)) l vars r.coef 0 ≠ [] := by
        intro h0; rw [h0] at hne; exact hne rfl
      have k1 := key (if decide (sgn (r.at l) > 0) = true then -r.cst else r.cst) hne'
      have k2 := key2 (if decide (sgn (r.at l) > 0) = true then -r.cst else r.cst) hne'
      have hs := K.E_sum k2 k1
      split at h
      · split at h
        · split at h <;> (simp only [Option.some.injEq] at h; subst h)
          · exact K.E_cdiv hden hs
          · exact K.E_fdiv hden hs
        · simp only [Option.some.injEq] at h; subst h
          exact K.E_div hden k2 k1
      · simp only [Option.some.injEq] at h; subst h
        exact hs
    · repeat' split at h
      all_goals
        simp only [Option.some.injEq] at h
        subst h
        first
          | exact K.E_cst _
          | exact K.E_divc hden
          | (refine K.E_divc (K.D_pos ?_); have := sgn_ne ha0; have := sgn_pos (r.at l); simp_all; try omega)

theorem updLower_ok {s : CStride} {e : Expr} (h : K.E e = true) : K.E (updLower s e) = true := by
  cases e <;> first | exact K.E_cst _ | exact h

theorem adjust_ok {b : Bool} {s : Option CStride} {e : Expr} (h : K.E e = true) : K.E (adjustBound b s e) = true := by
  unfold adjustBound
  split
  · exact updLower_ok h
  · exact h

theorem minmax_ok {sort : List Expr → List Expr} (hs : ∀ l, (sort l).Perm l) {rows : List Row} {l : Nat} {max : Bool}
    {g : Option Nat} {lb ne : Bool} {st : Option CStride} {vars : Nat → Expr} (hv : ∀ i, K.A (vars i) = true)
    {e : Expr} (h : minmax sort rows l max g lb ne st vars = some e) : K.E e = true := by
  unfold minmax at h
  dsimp only at h
  split at h
  · cases h
  · rename_i hne
    simp only [Option.some.injEq] at h
    subst h
    refine K.E_mm (by split <;> simp) ?_ ?_
    · intro h0
      have := (hs (collectBounds rows l max g lb ne st vars)).length_eq
      rw [h0] at this
      exact hne (by rw [List.isEmpty_iff]; exact List.length_eq_zero_iff.1 this.symm)
    · intro e he
      rw [(hs _).mem_iff] at he
      unfold collectBounds at he
      rw [List.mem_filterMap] at he
      obtain ⟨r, _, hr⟩ := he
      cases hb : boundFromConstraint r l vars with
      | none => rw [hb] at hr; cases hr
      | some e' =>
        rw [hb] at hr
        simp only [Option.map_some, Option.some.injEq] at hr
        subst hr
        exact adjust_ok (bound_ok hv hb)

/-! ## Columns -/

/-- A definition of an existential has a numerator. -/
def someD (K : Kit) (d : DivDef) : Bool := (d.num.any (fun c => c != 0) || d.cst != 0) && K.D d.den

/-- Names and statement names can be used. -/
structure NamesPrint (nm : Names) : Prop where
  at_ : ∀ i, name (nm.at_ i) = true
  param : ∀ i, name (nm.param i) = true

theorem redNum_ne {c den : Int} (h : c ≠ 0) : redNum c den ≠ 0 := by
  unfold redNum
  have hg : ((Int.gcd c den : Nat) : Int) ∣ c := Int.gcd_dvd_left ..
  obtain ⟨k, hk⟩ := hg
  have hgz : ((Int.gcd c den : Nat) : Int) ≠ 0 := by
    intro h0; rw [h0] at hk; simp at hk; exact h hk
  intro h0
  have h1 : c / ((Int.gcd c den : Nat) : Int) = k := by
    conv => lhs; lhs; rw [hk]
    rw [Int.mul_ediv_cancel_left _ hgz]
  rw [h1] at h0
  rw [h0] at hk
  simp at hk
  exact h hk

theorem divTerms_elt {vars : Nat → Expr} (hv : ∀ i, K.A (vars i) = true) {den : Int} :
    ∀ (cs : List Int) (i : Nat), ∀ e ∈ divTerms vars den cs i, K.T e = true
  | [], _, e, he => by simp [divTerms] at he
  | c :: cs, i, e, he => by
    unfold divTerms at he
    split at he
    · exact divTerms_elt hv cs (i + 1) e he
    · rename_i hc
      simp only [List.mem_cons] at he
      rcases he with rfl | he
      · exact K.T_term (redNum_ne hc) (hv i)
      · exact divTerms_elt hv cs (i + 1) e he

theorem divTerms_ne {vars : Nat → Expr} {den : Int} : ∀ (cs : List Int) (i : Nat), cs.any (fun c => c != 0) = true →
    divTerms vars den cs i ≠ []
  | [], _, h => by simp at h
  | c :: cs, i, h => by
    unfold divTerms
    split
    · rename_i hc
      subst hc
      exact divTerms_ne cs (i + 1) (by simpa using h)
    · simp

theorem divExpr_atom {vars : Nat → Expr} (hv : ∀ i, K.A (vars i) = true) {d : DivDef} (hd : someD K d = true) :
    K.A (divExpr vars d) = true := by
  unfold divExpr
  simp only [someD, Bool.and_eq_true] at hd
  obtain ⟨hd, hden⟩ := hd
  refine K.A_fdiv hden (K.E_sum ?_ ?_)
  · intro h0
    rw [List.append_eq_nil_iff] at h0
    simp only [Bool.or_eq_true, bne_iff_ne, ne_eq] at hd
    rcases hd with hd | hd
    · exact divTerms_ne _ _ hd h0.1
    · have := h0.2
      simp [hd] at this
  · intro e he
    rw [List.mem_append] at he
    rcases he with he | he
    · exact divTerms_elt hv _ _ e he
    · split at he
      · simp at he
      · rename_i hc
        simp only [List.mem_singleton] at he
        subst he
        exact K.T_cst (redNum_ne hc)

theorem colExpr_atom {nm : Names} (hn : NamesPrint nm) {a b : Nat} {acc : List Expr}
    (ha : ∀ e ∈ acc, K.A e = true) (c : Nat) : K.A (colExpr nm a b acc c) = true := by
  unfold colExpr
  split
  · exact K.A_name (hn.at_ _)
  · split
    · rw [List.getD_eq_getElem?_getD]
      cases h : acc[c - a]? with
      | none => simp only [Option.getD_none]; exact K.A_zero
      | some e => exact ha e (List.mem_of_getElem? h)
    · exact K.A_name (hn.param _)

theorem divExprs_atom {nm : Names} (hn : NamesPrint nm) {a b : Nat} : ∀ (ds : List DivDef) (acc : List Expr),
    (∀ d ∈ ds, someD K d = true) → (∀ e ∈ acc, K.A e = true) → ∀ e ∈ divExprs nm a b ds acc, K.A e = true
  | [], acc, _, ha => ha
  | d :: ds, acc, hd, ha => by
    unfold divExprs
    apply divExprs_atom hn ds _ (fun x hx => hd x (by simp [hx]))
    intro e he
    rw [List.mem_append] at he
    rcases he with he | he
    · exact ha e he
    · simp only [List.mem_singleton] at he
      subst he
      exact divExpr_atom (fun i => colExpr_atom hn ha i) (hd d (by simp))

/-- The existentials of a domain can be printed. -/
def domOK (K : Kit) (D : Dom) : Bool := D.divs.all (someD K)

theorem vars_atom {nm : Names} (hn : NamesPrint nm) {D : Dom} (hd : domOK K D = true) (i : Nat) :
    K.A (D.vars nm i) = true :=
  colExpr_atom hn (divExprs_atom hn _ _ (List.all_eq_true.1 hd) (fun e he => by simp at he)) i

/-! ## Guards -/

/-- What the construction is given can be printed. -/
structure CtxPrintK (K : Kit) (cx : Ctx) : Prop where
  names : NamesPrint cx.nm
  sort : ∀ l, (cx.sort l).Perm l
  gsort : ∀ l, (cx.gsort l).Perm l
  /-- isl does not add constants as existentials -/
  floor : ∀ d e, 0 < d.den → (cx.floorAff d).2 = some e → someD K e = true

/-- The test of a modulo guard can be printed. -/
def outOK (K : Kit) : ModOut → Bool
  | .test q => K.Q q
  | _ => true

theorem modTerms_elt {nm : Names} (hn : NamesPrint nm) {nb : Nat} :
    ∀ (cs : List Int) (i : Nat), ∀ e ∈ modTerms nm nb cs i, K.T e = true
  | [], _, e, he => by simp [modTerms] at he
  | c :: cs, i, e, he => by
    unfold modTerms at he
    split at he
    · exact modTerms_elt hn cs (i + 1) e he
    · rename_i hc
      simp only [List.mem_cons] at he
      rcases he with rfl | he
      · refine K.T_term hc (K.A_name ?_)
        split
        · exact hn.at_ _
        · exact hn.param _
      · exact modTerms_elt hn cs (i + 1) e he

theorem modGuardEmit_ok {nm : Names} (hn : NamesPrint nm) {nb : Nat} {pair : Bool} {bound m : Int}
    {lc : List Int × Int} (hm0 : 0 < m) : outOK K (modGuardEmit nm nb pair bound m lc) = true := by
  unfold modGuardEmit
  split
  · split <;> split <;> rfl
  · rename_i hne
    have hne' : modTerms nm nb lc.1 0 ≠ [] := by intro h0; rw [h0] at hne; exact hne rfl
    have k1 : ∀ e ∈ (if sgn lc.2 = 0 then modTerms nm nb lc.1 0 else modTerms nm nb lc.1 0 ++ [.cst lc.2]),
        K.T e = true := by
      intro e he
      split at he
      · exact modTerms_elt hn _ _ e he
      · rename_i hs
        rw [List.mem_append] at he
        rcases he with he | he
        · exact modTerms_elt hn _ _ e he
        · simp only [List.mem_singleton] at he
          subst he
          exact K.T_cst (sgn_ne hs)
    have k2 : (if sgn lc.2 = 0 then modTerms nm nb lc.1 0 else modTerms nm nb lc.1 0 ++ [.cst lc.2]) ≠ [] := by
      split
      · exact hne'
      · simp
    have hm := K.E_mod (K.D_pos hm0) k2 k1
    dsimp only
    split
    · simp only [outOK, Kit.Q, hm, K.E_cst, Bool.and_self]
    · simp only [outOK, Kit.Q, hm, K.E_cst, Bool.and_self]

theorem modGuardConstraint_ok {nm : Names} (hn : NamesPrint nm) {strides : Nat → Option Stride} {sl : Nat}
    {pair : Bool} {bound : Int} {c : Row} {col : Nat} {o : ModOut}
    (h : modGuardConstraint nm strides sl pair bound c col = some o) : outOK K o = true := by
  unfold modGuardConstraint at h
  dsimp only at h
  split at h
  · rename_i hm0
    simp only [Option.some.injEq] at h
    subst h
    unfold modGuardReduced
    split
    · rfl
    · exact modGuardEmit_ok hn hm0
  · cases h

theorem modGuard_ok {cx : Ctx} (hc : CtxPrintK K cx) {D : Dom} {eqs : List (Nat × Row)} {strides : Nat → Option Stride}
    {sl : Nat} {u : Row} {l : Option Row} {col : Nat} {o : ModOut}
    (h : modGuard cx D eqs strides sl u l col = some o) : outOK K o = true := by
  unfold modGuard at h
  dsimp only at h
  have fin : ∀ {o : ModOut}, some ModOut.ok = some o → outOK K o = true := by
    intro o h
    simp only [Option.some.injEq] at h
    subst h
    rfl
  split at h
  · exact fin h
  · cases l with
    | none =>
      simp only [Bool.false_eq_true, if_false] at h
      split at h
      · split at h
        · exact fin h
        · exact modGuardConstraint_ok hc.names h
      · exact modGuardConstraint_ok hc.names h
    | some lo =>
      dsimp only at h
      split at h
      · exact fin h
      · split at h
        · split at h
          · exact fin h
          · exact modGuardConstraint_ok hc.names h
        · exact modGuardConstraint_ok hc.names h

theorem extra_ok {cx : Ctx} (hc : CtxPrintK K cx) {D : Dom} {L : Nat} {eqs : List (Nat × Row)}
    {strides : Nat → Option Stride} {sl : Nat} : ∀ (k : Nat) (rows : List Row) (rows' : List Row) (os : List ModOut),
    extraModGuards cx D L eqs strides sl k rows = some (rows', os) → ∀ o ∈ os, outOK K o = true
  | 0, rows, rows', os, h => by
    simp only [extraModGuards, Option.some.injEq, Prod.mk.injEq] at h
    rw [← h.2]
    simp
  | k + 1, rows, rows', os, h => by
    unfold extraModGuards at h
    dsimp only at h
    split at h
    · split at h
      · exact extra_ok hc k _ _ _ h
      · simp only [Option.bind_eq_bind, Option.bind_eq_some_iff] at h
        obtain ⟨o, ho, ⟨r, q⟩, hr, hx⟩ := h
        simp only [Option.some.injEq, Prod.mk.injEq] at hx
        rw [← hx.2]
        intro o' ho'
        simp only [List.mem_cons] at ho'
        rcases ho' with rfl | ho'
        · exact modGuard_ok hc ho
        · exact extra_ok hc k _ _ _ hr o' ho'
    · split at h
      · split at h
        · exact extra_ok hc k _ _ _ h
        · simp only [Option.bind_eq_bind, Option.bind_eq_some_iff] at h
          obtain ⟨o, ho, ⟨r, q⟩, hr, hx⟩ := h
          simp only [Option.some.injEq, Prod.mk.injEq] at hx
          rw [← hx.2]
          intro o' ho'
          simp only [List.mem_cons] at ho'
          rcases ho' with rfl | ho'
          · exact modGuard_ok hc ho
          · exact extra_ok hc k _ _ _ hr o' ho'
      · exact extra_ok hc k _ _ _ h

theorem individual_ok {r : Row} {i : Nat} {vars : Nat → Expr} (hv : ∀ i, K.A (vars i) = true) {q : Eqn}
    (h : individualEqn r i vars = some q) : K.Q q = true := by
  unfold individualEqn at h
  dsimp only at h
  rw [Option.map_eq_some_iff] at h
  obtain ⟨e, he, rfl⟩ := h
  simp only [Kit.Q, K.E_term (hv i), bound_ok hv he, Bool.and_self]

theorem guardRows_ok {cx : Ctx} (hc : CtxPrintK K cx) {D : Dom} (hd : domOK K D = true) {L : Nat} {copy : List Row} {i : Nat} :
    ∀ (rs : List Row) (mn mx : Bool), ∀ q ∈ guardRows cx D L copy i rs mn mx, K.Q q = true
  | [], _, _, q, hq => by simp [guardRows] at hq
  | r :: rs, mn, mx, q, hq => by
    have hv := fun i => vars_atom hc.names hd i
    unfold guardRows at hq
    repeat' split at hq
    · exact guardRows_ok hc hd rs _ _ q hq
    · exact guardRows_ok hc hd rs _ _ q hq
    · exact guardRows_ok hc hd rs _ _ q hq
    · rw [List.mem_append] at hq
      rcases hq with hq | hq
      · rw [Option.mem_toList] at hq
        exact individual_ok hv hq
      · exact guardRows_ok hc hd rs _ _ q hq
    · exact guardRows_ok hc hd rs _ _ q hq
    · exact guardRows_ok hc hd rs _ _ q hq
    · dsimp only at hq
      rw [List.mem_append] at hq
      rcases hq with hq | hq
      · rw [Option.mem_toList, Option.map_eq_some_iff] at hq
        obtain ⟨e, he, rfl⟩ := hq
        have := minmax_ok hc.sort hv he
        simp only [Kit.Q, K.E_term (hv i), this, Bool.and_self]
      · exact guardRows_ok hc hd rs _ _ q hq

theorem okSs_append (nm : Nat → String) : ∀ (a b : List Stmt), K.Ss nm (a ++ b) = (K.Ss nm a && K.Ss nm b)
  | [], b => by simp [Kit.Ss]
  | s :: a, b => by simp [Kit.Ss, okSs_append nm a b, Bool.and_assoc]

/-- A wrapper keeps printable code printable. -/
def wrapOK (K : Kit) (nm : Nat → String) (w : List Stmt → List Stmt) : Prop :=
  ∀ body, K.Ss nm body = true → K.Ss nm (w body) = true

theorem guard_ok {nm : Nat → String} {qs : List Eqn} (hn : qs ≠ []) (h : ∀ q ∈ qs, K.Q q = true) {body : List Stmt}
    (hb : K.Ss nm body = true) : K.Ss nm [.guard qs body] = true := by
  have : qs.all (fun (q : Eqn) => K.E q.lhs && K.E q.rhs) = true := List.all_eq_true.2 h
  simp only [Kit.Ss, Kit.S, this, hb, Bool.and_true, Bool.not_eq_true', List.isEmpty_eq_false_iff]
  exact hn

theorem ModOut.wrap_ok {nm : Nat → String} {o : ModOut} (h : outOK K o = true) : wrapOK K nm o.wrap := by
  intro body hb
  cases o with
  | ok => exact hb
  | unsat => exact hb
  | test q => exact guard_ok (by simp) (by simpa [outOK] using h) hb

theorem foldr_wrap_ok {nm : Nat → String} : ∀ (os : List ModOut), (∀ o ∈ os, outOK K o = true) →
    wrapOK K nm (fun body => os.foldr ModOut.wrap body)
  | [], _ => fun body hb => hb
  | o :: os, h => fun body hb =>
    ModOut.wrap_ok (h o (by simp)) _ (foldr_wrap_ok os (fun x hx => h x (by simp [hx])) body hb)

theorem insertGuard_ok {nm : Nat → String} {cx : Ctx} (hc : CtxPrintK K cx) {D : Dom} (hd : domOK K D = true) {L : Nat}
    {eqs : List (Nat × Row)} {strides : Nat → Option Stride} {sl : Nat} {g : List Stmt → List Stmt}
    (h : insertGuard cx D L eqs strides sl = some g) : wrapOK K nm g := by
  unfold insertGuard at h
  simp only [Option.bind_eq_bind, Option.bind_eq_some_iff] at h
  obtain ⟨⟨copy, outs⟩, ho, hx⟩ := h
  simp only [Option.some.injEq] at hx
  subst hx
  intro body hb
  refine foldr_wrap_ok outs (extra_ok hc _ _ _ _ ho) _ ?_
  split
  · exact hb
  · rename_i hne
    refine guard_ok ?_ ?_ hb
    · intro h0
      have := (hc.gsort (guardEqns cx D L copy)).length_eq
      rw [h0] at this
      exact hne (by rw [List.isEmpty_iff]; exact List.length_eq_zero_iff.1 this.symm)
    · intro q hq
      rw [(hc.gsort _).mem_iff] at hq
      unfold guardEqns at hq
      rw [List.mem_flatMap] at hq
      obtain ⟨i, _, hq⟩ := hq
      exact guardRows_ok hc hd _ _ _ q hq

/-! ## Loops -/

theorem assign_ok {nm : Nat → String} {cx : Ctx} (hc : CtxPrintK K cx) {col : Nat} {e : Expr} (he : K.E e = true) :
    wrapOK K nm (assign cx col e) := by
  intro body hb
  unfold assign
  split <;> simp [Kit.Ss, Kit.S, hb, he, hc.names.at_]

theorem for_ok {nm : Nat → String} {cx : Ctx} (hc : CtxPrintK K cx) {col : Nat} {lb ub : Option Expr} {s : Int}
    (h1 : K.O lb = true) (h2 : K.O ub = true) (hs : 0 < s) {body : List Stmt} (hb : K.Ss nm body = true) :
    K.Ss nm [.for_ (cx.nm.at_ col) lb ub s body] = true := by
  simp [Kit.Ss, Kit.S, h1, h2, hs, hb, hc.names.at_]

/-- Strides are positive. -/
def strideOK : Option Stride → Bool
  | some s => decide (0 < s.stride)
  | none => true

theorem strideStep_pos {st : Option Stride} (h : strideOK st = true) : 0 < strideStep st := by
  cases st with
  | none => simp [strideStep]
  | some s => simpa [strideStep, strideOK] using h

theorem insertEquation_ok {nm : Nat → String} {cx : Ctx} (hc : CtxPrintK K cx) {D : Dom} (hd : domOK K D = true) {L : Nat}
    {eqs : List (Nat × Row)} {strides : Nat → Option Stride} (hs : ∀ i, strideOK (strides i) = true) {u : Row}
    {l : Option Row} {s : Step} (h : insertEquation cx D L eqs strides u l = some s) : wrapOK K nm s.wrap := by
  have hv := fun i => vars_atom hc.names hd i
  unfold insertEquation at h
  dsimp only at h
  split at h
  · simp only [Option.bind_eq_bind, Option.bind_eq_some_iff] at h
    obtain ⟨e2, h2, e1, h1, hx⟩ := h
    simp only [Option.some.injEq] at hx
    subst hx
    intro body hb
    refine for_ok (lb := some e1) (ub := some e2) hc ?_ (bound_ok hv h2) (strideStep_pos (hs _)) hb
    cases l with
    | none =>
      simp only [Option.some.injEq] at h1
      rw [← h1, copy_eq]
      exact bound_ok (e := e2) hv h2
    | some lo => exact bound_ok hv h1
  · simp only [Option.bind_eq_bind, Option.bind_eq_some_iff] at h
    obtain ⟨o, ho, h⟩ := h
    have hok := modGuard_ok hc ho
    have main : ∀ {s : Step}, ((boundFromConstraint u (L - 1) (D.vars cx.nm)).bind fun e =>
        match l with
        | some _ => some ⟨true, fun body => o.wrap (assign cx (L - 1) e body), none, true⟩
        | none =>
          if equalAllow cx L (eqType D cx.nm.nPar u (L - 1)) = true then
            some ⟨true, o.wrap, some u, false⟩
          else some ⟨true, fun body => o.wrap (assign cx (L - 1) e body), some u, true⟩) = some s →
        wrapOK K nm s.wrap := by
      intro s h
      rw [Option.bind_eq_some_iff] at h
      obtain ⟨e, he, h⟩ := h
      have hw : wrapOK K nm (fun body => o.wrap (assign cx (L - 1) e body)) :=
        fun body hb => ModOut.wrap_ok hok _ (assign_ok hc (bound_ok hv he) _ hb)
      cases l with
      | some lo =>
        simp only [Option.some.injEq] at h
        subst h
        exact hw
      | none =>
        dsimp only at h
        split at h
        · simp only [Option.some.injEq] at h
          subst h
          exact ModOut.wrap_ok hok
        · simp only [Option.some.injEq] at h
          subst h
          exact hw
    cases o with
    | unsat =>
      simp only [Option.some.injEq] at h
      subst h
      exact fun body hb => hb
    | ok => exact main h
    | test q => exact main h

theorem loopBound_ok {cx : Ctx} (hc : CtxPrintK K cx) {rows : List Row} {col : Nat} {max : Bool} {st : Option Stride}
    (hst : strideOK st = true) {vars : Nat → Expr} (hv : ∀ i, K.A (vars i) = true) : K.O (loopBound cx rows col max st vars) = true := by
  unfold loopBound
  dsimp only
  split
  · rfl
  · rename_i hne
    refine K.E_mm (by split <;> simp) ?_ ?_
    · intro h0
      have := (hc.sort (loopBounds cx rows col max st vars)).length_eq
      rw [h0] at this
      exact hne (by rw [List.isEmpty_iff]; exact List.length_eq_zero_iff.1 this.symm)
    · intro e he
      rw [(hc.sort _).mem_iff] at he
      unfold loopBounds at he
      rw [List.mem_filterMap] at he
      obtain ⟨r, hmem, hr⟩ := he
      have hval := (List.mem_filter.1 hmem).2
      unfold loopBoundElt at hr
      split at hr
      · split at hr
        · unfold strideBound at hr
          dsimp only at hr
          refine bound_ok (fun i => ?_) hr
          generalize hq : (cx.floorAff (strideDiv cx.nm.nPar _ _ col r)).2 = q
          cases q with
          | none => exact hv i
          | some d =>
            simp only [strideVars, insertCol]
            split
            · exact hv i
            · split
              · refine divExpr_atom hv (hc.floor _ _ ?_ hq)
                simp only [validBound, if_true, Bool.and_eq_true] at hval
                have h1 := hval.1.1.1
                simp only [Row.isLower, decide_eq_true_eq, Bool.and_eq_true] at h1
                simp only [strideOK, decide_eq_true_eq] at hst
                exact Int.mul_pos (by simp_all) hst
              · exact hv _
        · rw [Option.map_eq_some_iff] at hr
          obtain ⟨e', he', rfl⟩ := hr
          exact updLower_ok (bound_ok hv he')
      · exact bound_ok hv hr

theorem insertFor_ok {nm : Nat → String} {cx : Ctx} (hc : CtxPrintK K cx) {icmp : Int → Int → Int} {rows : List Row}
    {L : Nat} {otl : Bool} {st : Option Stride} (hs : strideOK st = true) {vars : Nat → Expr}
    (hv : ∀ i, K.A (vars i) = true) {s : Step} (h : insertFor cx icmp rows L otl st vars = some s) :
    wrapOK K nm s.wrap := by
  have h1 := loopBound_ok hc (rows := rows) (col := L - 1) (max := true) hs hv
  have h2 := loopBound_ok hc (rows := rows) (col := L - 1) (max := false) hs hv
  unfold insertFor at h
  dsimp only at h
  generalize loopBound cx rows (L - 1) true st vars = e1 at h h1
  generalize loopBound cx rows (L - 1) false st vars = e2 at h h2
  split at h
  · simp only [Option.some.injEq] at h
    subst h
    exact fun body hb => hb
  · split at h
    · cases h
    · split at h
      · cases e1 with
        | none => cases h
        | some a =>
          cases e2 with
          | none => cases h
          | some b =>
            simp only [Option.some.injEq] at h
            subst h
            intro body hb
            refine assign_ok hc h1 _ (guard_ok (by simp) ?_ hb)
            intro q hq
            simp only [List.mem_singleton] at hq
            subst hq
            have hb' : K.E b = true := h2
            simp only [Kit.Q, K.E_term (K.A_name (hc.names.at_ (L - 1))), hb', Bool.and_self]
      · simp only [Option.some.injEq] at h
        subst h
        intro body hb
        exact for_ok hc h1 h2 (strideStep_pos hs) hb

theorem loopStep_ok {nm : Nat → String} {cx : Ctx} (hc : CtxPrintK K cx) {icmp : Int → Int → Int} {D : Dom}
    (hd : domOK K D = true) {L : Nat} {otl : Bool} {eqs : List (Nat × Row)} {strides : Nat → Option Stride}
    (hs : ∀ i, strideOK (strides i) = true) {s : Step} (h : loopStep cx icmp D L otl eqs strides = some s) :
    wrapOK K nm s.wrap := by
  unfold loopStep at h
  split at h
  · split at h
    · exact insertEquation_ok hc hd hs h
    · split at h
      · exact insertEquation_ok hc hd hs h
      · exact insertFor_ok hc (hs _) (fun i => vars_atom hc.names hd i) h
  · simp only [Option.some.injEq] at h
    subst h
    exact fun body hb => hb

theorem insertBlock_ok {nm : Nat → String} (hnm : ∀ k, name (nm k) = true) {cx : Ctx} (hc : CtxPrintK K cx)
    {eqs : List (Nat × Row)} {n : Nat} : ∀ (block : List Nat), K.Ss nm (insertBlock cx eqs block n) = true
  | [] => rfl
  | s :: block => by
    have ih := insertBlock_ok hnm hc (eqs := eqs) (n := n) block
    unfold insertBlock at ih ⊢
    rw [List.map_cons]
    simp only [Kit.Ss, Kit.S, hnm, ih, Bool.and_true, Bool.true_and, List.all_eq_true]
    intro e he
    rw [List.mem_map] at he
    obtain ⟨i, _, rfl⟩ := he
    split
    · rename_i r _
      cases hb : boundFromConstraint r i (eqVars cx.nm (i + 1) r.coef.length) with
      | none => exact K.E_cst 0
      | some e =>
        refine bound_ok (fun c => ?_) hb
        unfold eqVars
        split
        · exact K.A_name (hc.names.at_ _)
        · exact K.A_name (hc.names.param _)
    · exact K.E_term (K.A_name (hc.names.at_ i))

mutual
/-- A loop tree with printable domains and positive strides. -/
def loopOKK (K : Kit) : Loop → Bool
  | .mk D st _ _ inner => domOK K D && strideOK st && loopsOKK K inner
/-- All of them. -/
def loopsOKK (K : Kit) : List Loop → Bool
  | [] => true
  | l :: ls => loopOKK K l && loopsOKK K ls
end

theorem strides_update {strides : Nat → Option Stride} (hs : ∀ i, strideOK (strides i) = true) {st : Option Stride}
    (h : strideOK st = true) (L : Nat) (i : Nat) :
    strideOK ((if 0 < L then Function.update strides (L - 1) st else strides) i) = true := by
  split
  · by_cases hi : i = L - 1
    · subst hi; simpa using h
    · rw [Function.update_of_ne hi]; exact hs i
  · exact hs i

mutual
theorem insertLoop_ok {nm : Nat → String} (hnm : ∀ k, name (nm k) = true) {cx : Ctx} (hc : CtxPrintK K cx)
    {icmp : Int → Int → Int} : ∀ (l : Loop) (L : Nat) (eqs : List (Nat × Row)) (strides : Nat → Option Stride),
    (∀ i, strideOK (strides i) = true) → loopOKK K l = true → ∀ {ss}, insertLoop cx icmp L eqs strides l = some ss →
    K.Ss nm ss = true
  | .mk D st otl block inner, L, eqs, strides, hs, hl, ss, h => by
    simp only [loopOKK, Bool.and_eq_true] at hl
    obtain ⟨⟨hd, hst⟩, hin⟩ := hl
    have hs' := strides_update hs hst L
    unfold insertLoop at h
    simp only [Option.bind_eq_bind, Option.bind_eq_some_iff] at h
    obtain ⟨g, hg, s, hstep, h⟩ := h
    have hgw := insertGuard_ok (nm := nm) hc hd hg
    have hsw := loopStep_ok (nm := nm) hc hd hs' hstep
    split at h
    · simp only [Option.some.injEq] at h
      subst h
      exact hgw _ (hsw _ rfl)
    · simp only [Option.bind_eq_some_iff] at h
      obtain ⟨rest, hr, h⟩ := h
      simp only [Option.some.injEq] at h
      subst h
      have hrest := insertLoops_ok hnm hc inner _ _ _ hs' hin hr
      refine hgw _ (hsw _ ?_)
      rw [okSs_append, insertBlock_ok hnm hc, hrest]
      rfl
theorem insertLoops_ok {nm : Nat → String} (hnm : ∀ k, name (nm k) = true) {cx : Ctx} (hc : CtxPrintK K cx)
    {icmp : Int → Int → Int} : ∀ (ls : List Loop) (L : Nat) (eqs : List (Nat × Row)) (strides : Nat → Option Stride),
    (∀ i, strideOK (strides i) = true) → loopsOKK K ls = true → ∀ {ss}, insertLoops cx icmp L eqs strides ls = some ss →
    K.Ss nm ss = true
  | [], _, _, _, _, _, ss, h => by
    simp only [insertLoops, Option.some.injEq] at h
    subst h
    rfl
  | l :: ls, L, eqs, strides, hs, hl, ss, h => by
    simp only [loopsOKK, Bool.and_eq_true] at hl
    unfold insertLoops at h
    simp only [Option.bind_eq_bind, Option.bind_eq_some_iff] at h
    obtain ⟨a, ha, b, hb, h⟩ := h
    simp only [Option.some.injEq] at h
    subst h
    rw [okSs_append, insertLoop_ok hnm hc l L eqs strides hs hl.1 ha, insertLoops_ok hnm hc ls L eqs strides hs hl.2 hb]
    rfl
end

/-! ## C -/

/-- What the construction is given can be printed in C. -/
abbrev CtxPrint (cx : Ctx) : Prop := CtxPrintK cKit cx

/-- Loop trees that can be printed in C. -/
abbrev loopsOK (ls : List Loop) : Bool := loopsOKK cKit ls

theorem clast_ok {nm : Nat → String} (hnm : ∀ k, name (nm k) = true) {cx : Ctx} (hc : CtxPrint cx)
    {icmp : Int → Int → Int} {ls : List Loop} (hl : loopsOK ls = true) {ss : List Stmt}
    (h : clastCreate cx icmp ls = some ss) : okSs nm ss = true := by
  rw [← cKit_Ss]
  exact insertLoops_ok hnm hc ls 0 [] (fun _ => none) (fun _ => rfl) hl h

end Verif.PClast
