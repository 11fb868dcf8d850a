import Verif.Model.DefPair
import Verif.Props.EqTable

/-!
# C85: the constraints of the matrix backend that define a variable

The pair of inequalities is found exactly when its shape is that of the comment in the source, and it
then stands for a floor division and a condition on the remainder.
-/

namespace Verif.Props.DefPair
open Verif.IntOps Verif.EqTable Verif.DefPair Verif.Props.Arith Verif.Props.EqTable

/-! ## Specification -/

/-- A row at an integer point. -/
def HoldsZ (r : Row) (X : Nat → Int) : Prop := if at_ r 0 = 0 then val r X = 0 else 0 ≤ val r X

/-- An integer point of a matrix. -/
def SolZ (m : List Row) (X : Nat → Int) : Prop := ∀ r ∈ m, HoldsZ r X

/-- The shape of a lower and an upper bound of the variable of column `level` by `k * e`, `k ≥ 2`, with
    opposite other coefficients, constants that leave room for at most one value, and no iterator after
    the variable.  `len` is the number of variables, of which the last `nbPar` are parameters. -/
structure Pair (len nbPar level : Nat) (u l : Row) : Prop where
  ineq_u : at_ u 0 ≠ 0
  ineq_l : at_ l 0 ≠ 0
  coef : 2 ≤ at_ l level
  opp : ∀ j, 1 ≤ j → j ≤ len → at_ u j = - at_ l j
  last : ∀ j, level < j → j ≤ len - nbPar → at_ l j = 0
  room : 0 ≤ at_ u (len + 1) + at_ l (len + 1) ∧ at_ u (len + 1) + at_ l (len + 1) < at_ l level

/-! ## Tests -/

theorem seqFirstNonZero_isSome : ∀ (p : List Int), (seqFirstNonZero p).isSome = false ↔ ∀ x ∈ p, x = 0
  | [] => by simp [seqFirstNonZero]
  | x :: xs => by
    have ih := seqFirstNonZero_isSome xs
    unfold seqFirstNonZero
    by_cases h : sgn x = 0
    · have hx : x = 0 := by
        unfold sgn at h
        split_ifs at h <;> omega
      rw [if_neg (by simpa using h)]
      simpa [hx] using ih
    · have hx : x ≠ 0 := by
        rintro rfl
        exact h (by simp [sgn])
      rw [if_pos h]
      simp [hx]

theorem mem_slice {r : Row} {a n : Nat} (P : Int → Prop) (h0 : P 0) :
    (∀ x ∈ (r.drop a).take n, P x) ↔ ∀ j, a ≤ j → j < a + n → P (at_ r j) := by
  constructor
  · intro h j h1 h2
    unfold at_
    by_cases hj : j < r.length
    · rw [List.getD_eq_getElem _ _ hj]
      apply h
      rw [List.mem_iff_getElem]
      refine ⟨j - a, by simp; omega, ?_⟩
      simp only [List.getElem_take, List.getElem_drop]
      congr 1
      omega
    · rw [List.getD_eq_default _ _ (by omega)]
      exact h0
  · intro h x hx
    obtain ⟨i, hi, rfl⟩ := List.mem_iff_getElem.1 hx
    simp only [List.length_take, List.length_drop] at hi
    have := h (a + i) (by omega) (by omega)
    unfold at_ at this
    rw [List.getD_eq_getElem _ _ (by omega)] at this
    simpa only [List.getElem_take, List.getElem_drop] using this

theorem bad_iff {level nbIter : Nat} {r : Row} (h0 : at_ r level ≠ 0) (hl : level ≤ nbIter) :
    bad level nbIter r = false ↔ at_ r 0 ≠ 0 ∧ (2 ≤ at_ r level ∨ at_ r level ≤ -2) ∧
      ∀ j, level < j → j ≤ nbIter → at_ r j = 0 := by
  unfold bad
  rw [Bool.or_eq_false_iff, Bool.or_eq_false_iff, Bool.or_eq_false_iff, seqFirstNonZero_isSome,
    mem_slice (fun x => x = 0) rfl]
  simp only [decide_eq_false_iff_not]
  constructor
  · rintro ⟨⟨⟨h1, h2⟩, h3⟩, h4⟩
    exact ⟨h1, by omega, fun j hj1 hj2 => h4 j (by omega) (by omega)⟩
  · rintro ⟨h1, h2, h3⟩
    exact ⟨⟨⟨h1, by omega⟩, by omega⟩, fun j hj1 hj2 => h3 j (by omega) (by omega)⟩

theorem neg_iff {len : Nat} {p q : Row} (hp : p.length = len + 2) (hq : q.length = len + 2) :
    seqIsNeg ((p.drop 1).take len) ((q.drop 1).take len) = true ↔
      ∀ j, 1 ≤ j → j ≤ len → at_ q j = - at_ p j := by
  rw [C03_seq_is_neg _ _ (by simp [hp, hq])]
  constructor
  · intro h j h1 h2
    have := congrArg (fun s => s.getD (j - 1) 0) h
    rw [List.getD_eq_getElem _ _ (by simp; omega), List.getD_eq_getElem _ _ (by simp; omega)] at this
    simp only [List.getElem_take, List.getElem_drop, List.getElem_map] at this
    unfold at_
    rw [List.getD_eq_getElem _ _ (by omega), List.getD_eq_getElem _ _ (by omega)]
    have e : 1 + (j - 1) = j := by omega
    simpa only [e] using this
  · intro h
    apply List.ext_getElem (by simp [hp, hq])
    intro i h1 h2
    simp only [List.length_take, List.length_drop] at h1
    have := h (1 + i) (by omega) (by omega)
    unfold at_ at this
    rw [List.getD_eq_getElem _ _ (by omega), List.getD_eq_getElem _ _ (by omega)] at this
    simpa only [List.getElem_take, List.getElem_drop, List.getElem_map] using this

/-! ## The search -/

/-- The rows that have the variable. -/
def having (level : Nat) (m : List Row) : List Row := m.filter fun r => decide (at_ r level ≠ 0)

theorem having_zero {level : Nat} {r : Row} {m : List Row} (h : at_ r level = 0) :
    having level (r :: m) = having level m := by
  simp [having, h]

theorem having_cons {level : Nat} {r : Row} {m : List Row} (h : at_ r level ≠ 0) :
    having level (r :: m) = r :: having level m := by
  simp [having, h]

theorem having_any {level : Nat} {m : List Row} :
    m.any (fun r => decide (at_ r level ≠ 0)) = false ↔ having level m = [] := by
  simp [having]

theorem outer_nil {level nbIter len : Nat} : ∀ {m : List Row}, having level m = [] →
    outer level nbIter len m = none
  | [], _ => rfl
  | r :: m, h => by
    by_cases h0 : at_ r level = 0
    · rw [having_zero h0] at h
      unfold outer
      rw [if_pos h0]
      exact outer_nil h
    · rw [having_cons h0] at h
      cases h

theorem inner_none {level nbIter len : Nat} {p : Row} : ∀ {m : List Row},
    inner level nbIter len p m = none → having level m = []
  | [], _ => rfl
  | q :: m, h => by
    unfold inner at h
    by_cases h0 : at_ q level = 0
    · rw [if_pos h0] at h
      rw [having_zero h0]
      exact inner_none h
    · rw [if_neg h0] at h
      split_ifs at h

theorem cabs_pos {i : Int} (h : 0 ≤ i) : cabs i = i := by
  unfold cabs
  split_ifs <;> omega

theorem inner_some {level nbPar len : Nat} {p : Row} (hp : p.length = len + 2)
    (hl1 : 1 ≤ level) (hl : level ≤ len - nbPar) (hp0 : at_ p level ≠ 0)
    (hpb : bad level (len - nbPar) p = false) (u l : Row) :
    ∀ {m : List Row}, (∀ r ∈ m, r.length = len + 2) →
    (inner level (len - nbPar) len p m = some (some (u, l)) ↔
      Pair len nbPar level u l ∧ (p :: having level m = [u, l] ∨ p :: having level m = [l, u]))
  | [], _ => by
    simp [inner, having]
  | q :: m, hm => by
    have hq : q.length = len + 2 := hm q (by simp)
    have ih := inner_some hp hl1 hl hp0 hpb u l (m := m) (fun r hr => hm r (by simp [hr]))
    unfold inner
    by_cases h0 : at_ q level = 0
    · rw [if_pos h0, having_zero h0]
      exact ih
    · rw [if_neg h0, having_cons h0]
      obtain ⟨p1, p2, p3⟩ := (bad_iff hp0 hl).1 hpb
      constructor
      · intro h
        by_cases c1 : bad level (len - nbPar) q = true
        · rw [if_pos c1] at h; simp at h
        rw [if_neg c1] at h
        by_cases c2 : at_ p (1 + len) + at_ q (1 + len) < 0 ∨
            cabs (at_ p (1 + len) + at_ q (1 + len)) ≥ cabs (at_ p level)
        · rw [if_pos c2] at h; simp at h
        rw [if_neg c2] at h
        by_cases c3 : ¬ seqIsNeg ((p.drop 1).take len) ((q.drop 1).take len) = true
        · rw [if_pos c3] at h; simp at h
        rw [if_neg c3] at h
        by_cases c4 : m.any (fun r => decide (at_ r level ≠ 0)) = true
        · rw [if_pos c4] at h; simp at h
        rw [if_neg c4] at h
        by_cases c5 : at_ p level > 0
        all_goals first | rw [if_pos c5] at h | rw [if_neg c5] at h
        · have hqb : bad level (len - nbPar) q = false := by simpa using c1
          obtain ⟨q1, q2, q3⟩ := (bad_iff h0 hl).1 hqb
          have hn := (neg_iff hp hq).1 (not_not.1 c3)
          rw [having_any.1 (Bool.eq_false_iff.2 c4)]
          simp only [Option.some.injEq, Prod.mk.injEq] at h
          obtain ⟨rfl, rfl⟩ := h
          have c2' := not_or.1 c2
          rw [cabs_pos (i := at_ p level) (by omega), cabs_pos (by omega)] at c2'
          rw [Nat.add_comm 1 len] at c2'
          exact ⟨⟨q1, p1, by omega, hn, p3, by omega, by omega⟩, Or.inr rfl⟩
        · have hqb : bad level (len - nbPar) q = false := by simpa using c1
          obtain ⟨q1, q2, q3⟩ := (bad_iff h0 hl).1 hqb
          have hn := (neg_iff hp hq).1 (not_not.1 c3)
          rw [having_any.1 (Bool.eq_false_iff.2 c4)]
          simp only [Option.some.injEq, Prod.mk.injEq] at h
          obtain ⟨rfl, rfl⟩ := h
          have c2' := not_or.1 c2
          have hlv := hn level hl1 (by omega)
          have hc : cabs (at_ p level) = at_ q level := by
            unfold cabs
            split_ifs <;> omega
          rw [hc, cabs_pos (by omega)] at c2'
          rw [Nat.add_comm 1 len] at c2'
          exact ⟨⟨p1, q1, by omega, fun j h1 h2 => by rw [hn j h1 h2]; omega, q3, by omega, by omega⟩, Or.inl rfl⟩
      · rintro ⟨P, hpq⟩
        have hlv := P.opp level hl1 (by omega)
        have hco := P.coef
        have hro := P.room
        rcases hpq with hpq | hpq
        · simp only [List.cons.injEq] at hpq
          obtain ⟨rfl, rfl, hm0⟩ := hpq
          have hqb : bad level (len - nbPar) q = false := (bad_iff h0 hl).2 ⟨P.ineq_l, by omega, P.last⟩
          have hc : cabs (at_ p level) = at_ q level := by
            unfold cabs
            split_ifs <;> omega
          have hn := (neg_iff hp hq).2 (fun j h1 h2 => by rw [P.opp j h1 h2]; omega)
          rw [hc, Nat.add_comm 1 len, cabs_pos hro.1, if_neg (by simp [hqb]), if_neg (by omega),
            if_neg (not_not.2 hn), if_neg (by rw [having_any.2 hm0]; simp), if_neg (by omega)]
        · simp only [List.cons.injEq] at hpq
          obtain ⟨rfl, rfl, hm0⟩ := hpq
          have hqb : bad level (len - nbPar) q = false := (bad_iff h0 hl).2 ⟨P.ineq_u, by omega,
            fun j h1 h2 => by rw [P.opp j (by omega) (by omega), P.last j h1 h2]; rfl⟩
          have hn := (neg_iff hp hq).2 P.opp
          have hro' : 0 ≤ at_ p (len + 1) + at_ q (len + 1) := by omega
          rw [cabs_pos (i := at_ p level) (by omega), Nat.add_comm 1 len, cabs_pos hro', if_neg (by simp [hqb]),
            if_neg (by omega),
            if_neg (not_not.2 hn), if_neg (by rw [having_any.2 hm0]; simp), if_pos (by omega)]

/-- **C85.** The pair is found exactly when two rows have the variable and they are of the shape of the
    comment in the source; the row with the negative coefficient is returned as the upper bound. -/
theorem C85_pair_exact (len nbPar level : Nat) (hl1 : 1 ≤ level) (hl : level ≤ len - nbPar) (u l : Row) :
    ∀ (m : List Row), (∀ r ∈ m, r.length = len + 2) →
    (definingInequalities (len + 2) level nbPar m = some (u, l) ↔
      Pair len nbPar level u l ∧
        (m.filter (fun r => decide (at_ r level ≠ 0)) = [u, l] ∨
          m.filter (fun r => decide (at_ r level ≠ 0)) = [l, u]))
  | [], _ => by
    simp [definingInequalities, outer]
  | p :: m, hm => by
    have ih := C85_pair_exact len nbPar level hl1 hl u l m (fun r hr => hm r (by simp [hr]))
    have e : len + 2 - 2 - nbPar = len - nbPar := by omega
    unfold definingInequalities at ih ⊢
    rw [e, Nat.add_sub_cancel] at ih ⊢
    change _ ↔ _ ∧ (having level (p :: m) = _ ∨ having level (p :: m) = _)
    change _ ↔ _ ∧ (having level m = _ ∨ having level m = _) at ih
    unfold outer
    by_cases h0 : at_ p level = 0
    · rw [if_pos h0, having_zero h0]
      exact ih
    · rw [if_neg h0, having_cons h0]
      by_cases hb : bad level (len - nbPar) p = false
      · have hi := inner_some (hm p (by simp)) hl1 hl h0 hb u l (m := m) (fun r hr => hm r (by simp [hr]))
        rw [if_neg (by simp [hb])]
        cases hin : inner level (len - nbPar) len p m with
        | some res =>
          rw [hin] at hi
          simpa using hi
        | none =>
          have hn := inner_none hin
          simp only [outer_nil hn, hn]
          simp
      · rw [if_pos (by simpa using hb)]
        constructor
        · intro h
          cases h
        · rintro ⟨P, hpq⟩
          exfalso
          apply hb
          have hlv := P.opp level hl1 (by omega)
          have hco := P.coef
          rcases hpq with hpq | hpq
          · simp only [List.cons.injEq] at hpq
            obtain ⟨rfl, _⟩ := hpq
            exact (bad_iff h0 hl).2 ⟨P.ineq_u, by omega,
              fun j h1 h2 => by rw [P.opp j (by omega) (by omega), P.last j h1 h2]; rfl⟩
          · simp only [List.cons.injEq] at hpq
            obtain ⟨rfl, _⟩ := hpq
            exact (bad_iff h0 hl).2 ⟨P.ineq_l, by omega, P.last⟩

/-! ## Meaning -/

theorem val_set {r : Row} {len level : Nat} (hr : r.length = len + 2) (h1 : 1 ≤ level) (h2 : level ≤ len)
    (X : Nat → Int) (v : Int) :
    val r (Function.update X level v) = val r (Function.update X level 0) + at_ r level * v := by
  have key : (∑ j ∈ Finset.Ico 1 (len + 1), at_ r j * Function.update X level v j) =
      (∑ j ∈ Finset.Ico 1 (len + 1), at_ r j * Function.update X level 0 j) + at_ r level * v := by
    have : at_ r level * v = ∑ j ∈ Finset.Ico 1 (len + 1), (if j = level then at_ r level * v else 0) := by
      rw [Finset.sum_ite_eq' _ level, if_pos (by simp; omega)]
    rw [this, ← Finset.sum_add_distrib]
    apply Finset.sum_congr rfl
    intro j _
    by_cases hj : j = level
    · subst hj; simp
    · simp [hj]
  unfold val
  rw [hr]
  simp only [Nat.add_sub_cancel, show len + 2 - 1 = len + 1 from rfl, Int.cast_id]
  rw [key]
  ring

theorem val_opp {u l : Row} {len : Nat} (hu : u.length = len + 2) (hl : l.length = len + 2)
    (h : ∀ j, 1 ≤ j → j ≤ len → at_ u j = - at_ l j) (X : Nat → Int) :
    val u X + val l X = at_ u (len + 1) + at_ l (len + 1) := by
  unfold val
  rw [hu, hl]
  simp only [show len + 2 - 1 = len + 1 from rfl, Int.cast_id]
  have : (∑ j ∈ Finset.Ico 1 (len + 1), at_ u j * X j) = -(∑ j ∈ Finset.Ico 1 (len + 1), at_ l j * X j) := by
    rw [← Finset.sum_neg_distrib]
    apply Finset.sum_congr rfl
    intro j hj
    simp only [Finset.mem_Ico] at hj
    rw [h j hj.1 (by omega)]
    ring
  rw [this]
  ring

theorem holds_off {r : Row} {len level : Nat} (hr : r.length = len + 2) (h1 : 1 ≤ level) (h2 : level ≤ len)
    (h0 : at_ r level = 0) (X : Nat → Int) (v : Int) :
    HoldsZ r (Function.update X level v) ↔ HoldsZ r X := by
  have hx := val_set hr h1 h2 X v
  have hy := val_set hr h1 h2 X (X level)
  rw [Function.update_eq_self] at hy
  rw [h0] at hx hy
  unfold HoldsZ
  rw [hx, hy]
  simp

/-- The room between the bounds: a multiple of `k` in an interval shorter than `k`. -/
theorem between {k U L e : Int} (hk : 2 ≤ k) (h0 : 0 ≤ U + L) (h1 : U + L < k) :
    (0 ≤ U + -k * e ∧ 0 ≤ L + k * e) ↔ (e = U / k ∧ U % k ≤ U + L) := by
  have hd := Int.mul_ediv_add_emod U k
  have hm := Int.emod_nonneg U (show k ≠ 0 by omega)
  have hm' := Int.emod_lt_of_pos U (show 0 < k by omega)
  constructor
  · rintro ⟨a, b⟩
    have he : e = U / k := by
      apply le_antisymm
      · rw [Int.le_ediv_iff_mul_le (by omega)]
        linarith [mul_comm e k]
      · have : U / k < e + 1 := by
          rw [Int.ediv_lt_iff_lt_mul (by omega)]
          nlinarith
        omega
    refine ⟨he, ?_⟩
    rw [he] at b
    omega
  · rintro ⟨rfl, h⟩
    constructor
    · nlinarith
    · omega

/-- **C85.** The values of the variable in a matrix where the pair is found: at most one, the floor of
    the upper bound without the variable by the coefficient, and there is one exactly when the other rows
    hold and the remainder of that division is at most the sum of the constants of the two bounds (the
    modulo guard). -/
theorem C85_pair_meaning (len nbPar level : Nat) (hl1 : 1 ≤ level) (hl : level ≤ len - nbPar) (m : List Row)
    (hm : ∀ r ∈ m, r.length = len + 2) (u l : Row)
    (h : definingInequalities (len + 2) level nbPar m = some (u, l)) (X : Nat → Int) (v : Int) :
    SolZ m (Function.update X level v) ↔
      (v = val u (Function.update X level 0) / at_ l level ∧
        val u (Function.update X level 0) % at_ l level ≤ at_ u (len + 1) + at_ l (len + 1) ∧
        ∀ r ∈ m, at_ r level = 0 → HoldsZ r X) := by
  obtain ⟨P, hpq⟩ := (C85_pair_exact len nbPar level hl1 hl u l m hm).1 h
  have hlen : level ≤ len := by omega
  have hmem : ∀ r, r ∈ m ∧ at_ r level ≠ 0 ↔ r = u ∨ r = l := by
    intro r
    have : r ∈ m.filter (fun r => decide (at_ r level ≠ 0)) ↔ r = u ∨ r = l := by
      rcases hpq with e | e <;> rw [e] <;> simp [or_comm]
    rw [← this]
    simp
  have hum := ((hmem u).2 (Or.inl rfl)).1
  have hlm := ((hmem l).2 (Or.inr rfl)).1
  have hsum := val_opp (hm u hum) (hm l hlm) P.opp (Function.update X level 0)
  have hb := between (k := at_ l level) (U := val u (Function.update X level 0))
    (L := val l (Function.update X level 0)) (e := v) P.coef (by rw [hsum]; exact P.room.1)
    (by rw [hsum]; exact P.room.2)
  have hu : HoldsZ u (Function.update X level v) ↔
      0 ≤ val u (Function.update X level 0) + -(at_ l level) * v := by
    unfold HoldsZ
    rw [if_neg P.ineq_u, val_set (hm u hum) hl1 hlen, P.opp level hl1 hlen]
  have hl' : HoldsZ l (Function.update X level v) ↔
      0 ≤ val l (Function.update X level 0) + at_ l level * v := by
    unfold HoldsZ
    rw [if_neg P.ineq_l, val_set (hm l hlm) hl1 hlen]
  rw [← hsum]
  constructor
  · intro hs
    obtain ⟨a, b⟩ := hb.1 ⟨hu.1 (hs u hum), hl'.1 (hs l hlm)⟩
    exact ⟨a, b, fun r hr h0 => (holds_off (hm r hr) hl1 hlen h0 X v).1 (hs r hr)⟩
  · rintro ⟨a, b, c⟩ r hr
    by_cases h0 : at_ r level = 0
    · exact (holds_off (hm r hr) hl1 hlen h0 X v).2 (c r hr h0)
    · obtain ⟨e1, e2⟩ := hb.2 ⟨a, b⟩
      rcases (hmem r).1 ⟨hr, h0⟩ with rfl | rfl
      · exact hu.2 e1
      · exact hl'.2 e2

/-! ## The equality -/

/-- **C85.** The equality found is the first row that is an equality and has the variable; none is found
    exactly when there is no such row. -/
theorem C85_equality_first (level : Nat) : ∀ (m : List Row) (r : Row),
    (definingEquality level m = some r ↔ ∃ m₁ m₂, m = m₁ ++ r :: m₂ ∧ at_ r 0 = 0 ∧ at_ r level ≠ 0 ∧
      ∀ s ∈ m₁, at_ s 0 = 0 → at_ s level = 0)
  | [], r => by simp [definingEquality]
  | p :: m, r => by
    have ih := C85_equality_first level m r
    unfold definingEquality
    by_cases hp : at_ p 0 = 0 ∧ at_ p level ≠ 0
    · rw [if_pos hp]
      constructor
      · intro h
        obtain rfl := Option.some.inj h
        exact ⟨[], m, rfl, hp.1, hp.2, by simp⟩
      · rintro ⟨m₁, m₂, e, _, _, h3⟩
        cases m₁ with
        | nil => simp at e; rw [e.1]
        | cons s m₁ =>
          simp only [List.cons_append, List.cons.injEq] at e
          exact absurd (h3 s (by simp) (e.1 ▸ hp.1)) (e.1 ▸ hp.2)
    · rw [if_neg hp, ih]
      constructor
      · rintro ⟨m₁, m₂, e, h1, h2, h3⟩
        refine ⟨p :: m₁, m₂, by simp [e], h1, h2, ?_⟩
        intro s hs
        rcases List.mem_cons.1 hs with rfl | hs
        · intro h0
          by_contra hc
          exact hp ⟨h0, hc⟩
        · exact h3 s hs
      · rintro ⟨m₁, m₂, e, h1, h2, h3⟩
        cases m₁ with
        | nil =>
          simp only [List.nil_append, List.cons.injEq] at e
          exact absurd ⟨e.1 ▸ h1, e.1 ▸ h2⟩ hp
        | cons s m₁ =>
          simp only [List.cons_append, List.cons.injEq] at e
          exact ⟨m₁, m₂, e.2, h1, h2, fun t ht => h3 t (by simp [ht])⟩

/-- **C85.** The equality found fixes the variable: its value at a point of the matrix is the exact
    quotient of the rest of the row by minus the coefficient. -/
theorem C85_equality_defines (len level : Nat) (hl1 : 1 ≤ level) (hl : level ≤ len) (m : List Row)
    (hm : ∀ r ∈ m, r.length = len + 2) (r : Row) (h : definingEquality level m = some r) (X : Nat → Int) (v : Int)
    (hs : SolZ m (Function.update X level v)) :
    at_ r level * v = - val r (Function.update X level 0) ∧
      ∀ w, SolZ m (Function.update X level w) → w = v := by
  obtain ⟨m₁, m₂, e, h1, h2, _⟩ := (C85_equality_first level m r).1 h
  have hr : r ∈ m := by rw [e]; simp
  have key : ∀ w, SolZ m (Function.update X level w) → at_ r level * w = - val r (Function.update X level 0) := by
    intro w hw
    have := hw r hr
    unfold HoldsZ at this
    rw [if_pos h1, val_set (hm r hr) hl1 hl] at this
    omega
  refine ⟨key v hs, fun w hw => ?_⟩
  exact mul_left_cancel₀ h2 ((key w hw).trans (key v hs).symm)

/-- **C85.** The comment of the source says that all the equalities with the variable are equivalent.
    They are not: the first one may hold where another fails, with another value for the variable. -/
theorem C85_equalities_differ : ∃ (m : List Row) (r s : Row) (X : Nat → Int),
    (∀ t ∈ m, t.length = 4) ∧ definingEquality 1 m = some r ∧ s ∈ m ∧ at_ s 0 = 0 ∧ at_ s 1 ≠ 0 ∧
      HoldsZ r X ∧ ¬ HoldsZ s X ∧ SolZ m (fun _ => 0) := by
  refine ⟨[[0, 1, -1, 0], [0, 1, -2, 0]], [0, 1, -1, 0], [0, 1, -2, 0], fun _ => 1, by decide, rfl, by simp,
    rfl, by decide, ?_, ?_, ?_⟩
  · simp [HoldsZ, val, at_, Finset.sum_Ico_succ_top]
  · simp [HoldsZ, val, at_, Finset.sum_Ico_succ_top]
  · intro r hr
    simp only [List.mem_cons, List.not_mem_nil, or_false] at hr
    rcases hr with rfl | rfl <;> simp [HoldsZ, val, at_]

/-- **C85.** A column is a level of the matrix exactly when it is that of an iterator. -/
theorem C85_contains (len nbPar level : Nat) (hp : nbPar ≤ len) :
    containsLevel (len + 2 : Nat) level nbPar = true ↔ level < len + 1 - nbPar := by
  unfold containsLevel
  simp only [decide_eq_true_eq]
  omega

/-! ## Examples -/

/-- `n - 3 e + 0 >= 0`, `-n + 3 e + 1 >= 0`, `n >= 0`: the pair is found whatever the order. -/
example : definingInequalities 4 1 1 [[1, 0, 1, 0], [1, 3, -1, 1], [1, -3, 1, 0]] =
    some ([1, -3, 1, 0], [1, 3, -1, 1]) := by decide
example : definingInequalities 4 1 1 [[1, -3, 1, 0], [1, 0, 1, 0], [1, 3, -1, 1]] =
    some ([1, -3, 1, 0], [1, 3, -1, 1]) := by decide

/-- A third row with the variable, an iterator after it, too much room. -/
example : definingInequalities 4 1 1 [[1, -3, 1, 0], [1, 3, -1, 1], [1, 2, 1, 0]] = none := by decide
example : definingInequalities 4 1 0 [[1, -3, 1, 0], [1, 3, -1, 1]] = none := by decide
example : definingInequalities 4 1 1 [[1, -3, 1, 0], [1, 3, -1, 3]] = none := by decide
example : definingInequalities 4 1 1 [[1, -1, 1, 0], [1, 1, -1, 0]] = none := by decide

/-- The meaning at `n = 7`: `7 % 3 <= 1` and the value is 2. -/
example : SolZ [[1, 0, 1, 0], [1, 3, -1, 1], [1, -3, 1, 0]] (Function.update (fun _ => 7) 1 2) := by
  rw [C85_pair_meaning 2 1 1 (by decide) (by decide) _ (by decide) [1, -3, 1, 0] [1, 3, -1, 1] (by decide)]
  simp [val, at_, HoldsZ, Finset.sum_Ico_succ_top]

example : definingEquality 1 [[1, 1, 0, 0], [0, 0, 1, 0], [0, 2, -1, 0], [0, 1, 0, 0]] = some [0, 2, -1, 0] := by
  decide

end Verif.Props.DefPair
