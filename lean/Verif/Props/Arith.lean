import Verif.Lemmas.IntOps

/-!
# Arithmetic properties: C01, C02, C03, C04, C07, C16

The specifications of floor, ceiling, gcd etc. are stated directly on integers, independently of
the model's functions.
-/

namespace Verif.Props.Arith

open Verif.IntOps

/-! ## Specifications -/

/-- `q` is the largest integer not above the rational `n/d` (`d > 0`). -/
def IsFloor (n d q : Int) : Prop := q * d ≤ n ∧ n < (q + 1) * d

/-- `q` is the smallest integer not below the rational `n/d` (`d > 0`). -/
def IsCeil (n d q : Int) : Prop := n ≤ q * d ∧ (q - 1) * d < n

theorem isFloor_ediv (n d : Int) (hd : 0 < d) : IsFloor n d (n / d) := by
  have h1 := Int.mul_ediv_add_emod n d
  have h2 := Int.emod_nonneg n (Int.ne_of_gt hd)
  have h3 := Int.emod_lt_of_pos n hd
  constructor <;> nlinarith

theorem isFloor_unique {n d q q' : Int} (hd : 0 < d) (h : IsFloor n d q) (h' : IsFloor n d q') :
    q = q' := by
  obtain ⟨a, b⟩ := h; obtain ⟨a', b'⟩ := h'
  have h1 : q < q' + 1 := by
    by_contra hc; have : (q' + 1) * d ≤ q * d := by nlinarith
    omega
  have h2 : q' < q + 1 := by
    by_contra hc; have : (q + 1) * d ≤ q' * d := by nlinarith
    omega
  omega

theorem isCeil_neg {n d q : Int} : IsCeil n d q ↔ IsFloor (-n) d (-q) := by
  unfold IsCeil IsFloor
  constructor <;> rintro ⟨a, b⟩ <;> constructor <;> nlinarith

theorem isCeil_unique {n d q q' : Int} (hd : 0 < d) (h : IsCeil n d q) (h' : IsCeil n d q') :
    q = q' := by
  have := isFloor_unique hd (isCeil_neg.mp h) (isCeil_neg.mp h')
  omega

/-! ## C01 -/

/-- C01: the macros printed at the head of a generated program compute the exact floor and ceiling
for every dividend and every positive divisor, and exact maximum and minimum. -/
theorem C01_macros_exact (n d : Int) (hd : 0 < d) :
    IsFloor n d (floord n d) ∧ IsCeil n d (ceild n d) := by
  constructor
  · rw [floord_eq n d hd]; exact isFloor_ediv n d hd
  · rw [ceild_eq n d hd, isCeil_neg, Int.neg_neg]; exact isFloor_ediv _ d hd

/-- C01, `max`/`min` part: the result is one of the arguments and bounds both. -/
theorem C01_minmax_exact (x y : Int) :
    (cmax x y = x ∨ cmax x y = y) ∧ x ≤ cmax x y ∧ y ≤ cmax x y ∧
    (cmin x y = x ∨ cmin x y = y) ∧ cmin x y ≤ x ∧ cmin x y ≤ y := by
  unfold cmax cmin
  split <;> split <;> omega

example : floord (-7) 2 = -4 ∧ ceild (-7) 2 = -3 ∧ floord 7 2 = 3 ∧ ceild 7 2 = 4 := by decide

theorem chk_some {w : Nat} {x y : Int} (h : chk w x = some y) : y = x := by
  unfold chk at h; split at h
  · injection h with h; exact h.symm
  · cases h

theorem chk_of {w : Nat} {x : Int} (h : InRange w x) : chk w x = some x := if_pos h

/-- C01, machine arithmetic: evaluated in `w`-bit C arithmetic, the macros never return a wrong
value: either some intermediate result overflows, or the value is the exact one. -/
theorem C01_machine_never_wrong (w : Nat) (n d q : Int) (hd : 0 < d) :
    (floordC w n d = some q → IsFloor n d q) ∧ (ceildC w n d = some q → IsCeil n d q) := by
  have hne : ¬ d = 0 := by omega
  obtain ⟨hf, hc⟩ := C01_macros_exact n d hd
  constructor
  · intro h
    unfold floordC at h
    unfold floord at hf
    by_cases hn : n < 0
    · simp only [if_pos hn, if_neg hne, bind, Option.bind_eq_some_iff] at h hf
      obtain ⟨a, ha, b, hb, c, hc', q', hq', h⟩ := h
      have := chk_some ha; have := chk_some hb; have := chk_some hc'
      have := chk_some hq'; have := chk_some h
      subst_vars; exact hf
    · simp only [if_neg hn, if_neg hne] at h hf
      rw [chk_some h]; exact hf
  · intro h
    unfold ceildC at h
    unfold ceild at hc
    by_cases hn : n < 0
    · simp only [if_pos hn, if_neg hne, bind, Option.bind_eq_some_iff] at h hc
      obtain ⟨a, ha, q', hq', h⟩ := h
      have := chk_some ha; have := chk_some hq'; have := chk_some h
      subst_vars; exact hc
    · simp only [if_neg hn, if_neg hne, bind, Option.bind_eq_some_iff] at h hc
      obtain ⟨a, ha, b, hb, h⟩ := h
      have := chk_some ha; have := chk_some hb; have := chk_some h
      subst_vars; exact hc

theorem tdiv_bounds {x d : Int} (hd : 0 < d) (hx : 0 ≤ x) : 0 ≤ x.tdiv d ∧ x.tdiv d ≤ x := by
  rw [Int.tdiv_eq_ediv_of_nonneg hx]
  exact ⟨Int.ediv_nonneg hx (by omega), Int.ediv_le_self _ hx⟩

/-- C01, machine arithmetic: no intermediate result overflows as long as `|n| + d` is at most
`2^(w-1) - 1`. -/
theorem C01_machine_defined (w : Nat) (n d : Int) (hd : 0 < d) (h : |n| + d < 2 ^ (w - 1)) :
    (∃ q, floordC w n d = some q) ∧ (∃ q, ceildC w n d = some q) := by
  have hne : ¬ d = 0 := by omega
  have hP : (0 : Int) < 2 ^ (w - 1) := by positivity
  generalize hPe : (2 : Int) ^ (w - 1) = P at h hP
  have hr : ∀ x : Int, -P ≤ x → x < P → chk w x = some x := fun x h1 h2 =>
    chk_of (by unfold InRange; rw [hPe]; exact ⟨h1, h2⟩)
  have ha1 := le_abs_self n
  have ha2 := neg_abs_le n
  constructor
  · unfold floordC
    by_cases hn : n < 0
    · have hb := tdiv_bounds hd (x := -n + d - 1) (by omega)
      refine ⟨-((-n + d - 1).tdiv d), ?_⟩
      simp only [if_pos hn, if_neg hne, bind]
      rw [hr (-n) (by omega) (by omega), Option.bind_some, hr (-n + d) (by omega) (by omega),
        Option.bind_some, hr (-n + d - 1) (by omega) (by omega), Option.bind_some,
        hr ((-n + d - 1).tdiv d) (by omega) (by omega), Option.bind_some, hr _ (by omega) (by omega)]
    · have hb := tdiv_bounds hd (x := n) (by omega)
      refine ⟨n.tdiv d, ?_⟩
      rw [if_neg hn, if_neg hne]
      exact hr _ (by omega) (by omega)
  · unfold ceildC
    by_cases hn : n < 0
    · have hb := tdiv_bounds hd (x := -n) (by omega)
      refine ⟨-((-n).tdiv d), ?_⟩
      simp only [if_pos hn, if_neg hne, bind]
      rw [hr (-n) (by omega) (by omega), Option.bind_some,
        hr _ (by omega) (by omega), Option.bind_some, hr _ (by omega) (by omega)]
    · have hb := tdiv_bounds hd (x := n + d - 1) (by omega)
      refine ⟨(n + d - 1).tdiv d, ?_⟩
      simp only [if_neg hn, if_neg hne, bind]
      rw [hr (n + d) (by omega) (by omega), Option.bind_some, hr _ (by omega) (by omega),
        Option.bind_some, hr _ (by omega) (by omega)]

example : floordC 32 (-7) 2 = some (-4) ∧ (|(-7 : Int)| + 2 < 2 ^ 31) := by decide

/-- C01, limit of the machine version: `floord(INT_MIN, 2)` overflows although its value is
representable. -/
theorem C01_machine_overflow_witness :
    floordC 32 (-2 ^ 31) 2 = none ∧ InRange 32 (floord (-2 ^ 31) 2) := by decide

/-! ## C02 -/

/-- C02: in exact arithmetic the machine-integer macros are floor quotient, floor remainder and
ceiling quotient (the functions `mpz_fdiv_q`, `mpz_fdiv_r`, `mpz_cdiv_q` of a GMP build), for every
dividend and every divisor accepted by their assertion. -/
theorem C02_div_macros (i j : Int) (hj : 0 < j) :
    ∃ q r c, fdivQ i j = some q ∧ fdivR i j = some r ∧ cdivQ i j = some c ∧
      i = q * j + r ∧ 0 ≤ r ∧ r < j ∧ IsFloor i j q ∧ IsCeil i j c := by
  refine ⟨_, _, _, fdivQ_eq i j hj, fdivR_eq i j hj, cdivQ_eq i j hj, ?_, ?_, ?_, ?_, ?_⟩
  · have := Int.mul_ediv_add_emod i j
    rw [Int.mul_comm] at this; omega
  · exact Int.emod_nonneg _ (Int.ne_of_gt hj)
  · exact Int.emod_lt_of_pos _ hj
  · exact isFloor_ediv i j hj
  · rw [isCeil_neg, Int.neg_neg]; exact isFloor_ediv _ j hj

/-- C02: the macros stop the program (assertion) exactly on non-positive divisors. -/
theorem C02_assert (i j : Int) :
    (fdivQ i j = none ↔ j ≤ 0) ∧ (fdivR i j = none ↔ j ≤ 0) ∧ (cdivQ i j = none ↔ j ≤ 0) := by
  unfold fdivQ fdivR cdivQ
  by_cases h : 0 < j
  · simp only [if_pos h]; refine ⟨?_, ?_, ?_⟩ <;> simp <;> omega
  · simp only [if_neg h]; refine ⟨?_, ?_, ?_⟩ <;> simp <;> omega

/-- C02: in `w`-bit arithmetic a macro that returns, returns the value of the exact version. -/
theorem C02_machine_never_wrong (w : Nat) (i j v : Int) :
    (fdivQC w i j = some v → fdivQ i j = some v) ∧
    (fdivRC w i j = some v → fdivR i j = some v) ∧
    (cdivQC w i j = some v → cdivQ i j = some v) := by
  unfold fdivQC fdivQ fdivRC fdivR cdivQC cdivQ
  by_cases hj : 0 < j
  · simp only [if_pos hj]
    by_cases hi : i ≥ 0
    · simp only [if_pos hi, bind, Option.bind_eq_some_iff]
      refine ⟨fun h => by rw [chk_some h], fun h => by rw [chk_some h], ?_⟩
      rintro ⟨a, ha, b, hb, h⟩
      have := chk_some ha; have := chk_some hb; have := chk_some h
      subst_vars; rfl
    · simp only [if_neg hi, bind, Option.bind_eq_some_iff]
      refine ⟨?_, ?_, ?_⟩
      · rintro ⟨a, ha, b, hb, c, hc, q, hq, h⟩
        have := chk_some ha; have := chk_some hb; have := chk_some hc; have := chk_some hq
        have := chk_some h
        subst_vars; rfl
      · rintro ⟨a, ha, b, hb, c, hc, q, hq, s, hs, h⟩
        have := chk_some ha; have := chk_some hb; have := chk_some hc; have := chk_some hq
        have := chk_some hs; have := chk_some h
        subst_vars; rfl
      · rintro ⟨a, ha, q, hq, h⟩
        have := chk_some ha; have := chk_some hq; have := chk_some h
        subst_vars; rfl
  · simp [if_neg hj]

theorem tmod_bounds {x d : Int} (hd : 0 < d) (hx : 0 ≤ x) : 0 ≤ x.tmod d ∧ x.tmod d < d := by
  rw [Int.tmod_eq_emod_of_nonneg hx]
  exact ⟨Int.emod_nonneg _ (by omega), Int.emod_lt_of_pos _ hd⟩

/-- C02: in `w`-bit arithmetic the macros are defined (no overflow) when `|i| + j < 2^(w-1)`. -/
theorem C02_machine_defined (w : Nat) (i j : Int) (hj : 0 < j) (h : |i| + j < 2 ^ (w - 1)) :
    (∃ v, fdivQC w i j = some v) ∧ (∃ v, fdivRC w i j = some v) ∧ (∃ v, cdivQC w i j = some v) := by
  have hP : (0 : Int) < 2 ^ (w - 1) := by positivity
  generalize hPe : (2 : Int) ^ (w - 1) = P at h hP
  have hr : ∀ x : Int, -P ≤ x → x < P → chk w x = some x := fun x h1 h2 =>
    chk_of (by unfold InRange; rw [hPe]; exact ⟨h1, h2⟩)
  have ha1 := le_abs_self i
  have ha2 := neg_abs_le i
  unfold fdivQC fdivRC cdivQC
  simp only [if_pos hj]
  by_cases hi : i ≥ 0
  · have hb := tdiv_bounds hj (x := i) (by omega)
    have hm := tmod_bounds hj (x := i) (by omega)
    have hc := tdiv_bounds hj (x := i + j - 1) (by omega)
    simp only [if_pos hi, bind]
    refine ⟨⟨i.tdiv j, hr _ (by omega) (by omega)⟩, ⟨i.tmod j, hr _ (by omega) (by omega)⟩,
      ⟨(i + j - 1).tdiv j, ?_⟩⟩
    rw [hr (i + j) (by omega) (by omega), Option.bind_some, hr _ (by omega) (by omega),
      Option.bind_some, hr _ (by omega) (by omega)]
  · have hb := tdiv_bounds hj (x := -i + j - 1) (by omega)
    have hm := tmod_bounds hj (x := -i + j - 1) (by omega)
    have hc := tdiv_bounds hj (x := -i) (by omega)
    simp only [if_neg hi, bind]
    refine ⟨⟨-((-i + j - 1).tdiv j), ?_⟩, ⟨j - 1 - (-i + j - 1).tmod j, ?_⟩, ⟨-((-i).tdiv j), ?_⟩⟩
    · rw [hr (-i) (by omega) (by omega), Option.bind_some, hr _ (by omega) (by omega),
        Option.bind_some, hr _ (by omega) (by omega), Option.bind_some, hr _ (by omega) (by omega),
        Option.bind_some, hr _ (by omega) (by omega)]
    · rw [hr (-i) (by omega) (by omega), Option.bind_some, hr _ (by omega) (by omega),
        Option.bind_some, hr _ (by omega) (by omega), Option.bind_some, hr _ (by omega) (by omega),
        Option.bind_some, hr _ (by omega) (by omega), Option.bind_some, hr _ (by omega) (by omega)]
    · rw [hr (-i) (by omega) (by omega), Option.bind_some, hr _ (by omega) (by omega),
        Option.bind_some, hr _ (by omega) (by omega)]

example : fdivQ (-7) 3 = some (-3) ∧ fdivR (-7) 3 = some 2 ∧ cdivQ (-7) 3 = some (-2) := by decide

/-! ## C03 -/

/-- `g` is the non-negative greatest common divisor of the entries of a row. -/
def IsRowGcd (p : List Int) (g : Int) : Prop :=
  0 ≤ g ∧ (∀ x ∈ p, g ∣ x) ∧ ∀ d : Int, (∀ x ∈ p, d ∣ x) → d ∣ g

/-- Value of the row, as an affine form, at a point. -/
def dot : List Int → List Int → Int
  | a :: as, x :: xs => a * x + dot as xs
  | _, _ => 0

/-- C03: `cloog_gcd` terminates and returns the non-negative greatest common divisor. -/
theorem C03_gcd (a b : Int) :
    0 ≤ cgcd a b ∧ cgcd a b ∣ a ∧ cgcd a b ∣ b ∧ ∀ d, d ∣ a → d ∣ b → d ∣ cgcd a b := by
  rw [cgcd_eq]
  exact ⟨by omega, Int.gcd_dvd_left .., Int.gcd_dvd_right .., fun d h1 h2 => Int.dvd_coe_gcd h1 h2⟩

/-- C03: `cloog_seq_gcd` returns the gcd of the whole row, 0 exactly for zero rows. -/
theorem C03_seq_gcd (p : List Int) :
    IsRowGcd p (seqGcd p) ∧ (seqGcd p = 0 ↔ ∀ x ∈ p, x = 0) := by
  rw [seqGcd_eq]
  refine ⟨⟨by omega, fun x hx => rowGcd_dvd hx, fun d h => ?_⟩, ?_⟩
  · rw [← Int.natAbs_dvd, Int.natCast_dvd_natCast]
    exact dvd_rowGcd (fun x hx => Int.natAbs_dvd.mpr (h x hx))
  · rw [← rowGcd_eq_zero]; omega

theorem dot_scale (k : Int) : ∀ (p x : List Int), dot (p.map (k * ·)) x = k * dot p x
  | [], x => by simp [dot]
  | a :: as, [] => by simp [dot]
  | a :: as, x :: xs => by
    simp only [List.map_cons, dot, dot_scale k as xs]; ring

/-- C03: `cloog_seq_normalize` returns a row of which the input is a positive multiple and whose
gcd is 1 (0 for the zero row). -/
theorem C03_normalize (p : List Int) :
    ∃ k : Int, 0 < k ∧ p = (seqNormalize p).map (k * ·) ∧
      ((∀ x ∈ p, x = 0) ∨ IsRowGcd (seqNormalize p) 1) := by
  cases hp : p with
  | nil => exact ⟨1, by omega, by simp [seqNormalize], Or.inl (by simp)⟩
  | cons y ys =>
    rw [← hp]
    have hg := C03_seq_gcd p
    obtain ⟨⟨h0, hdvd, hmax⟩, hz⟩ := hg
    have hnorm : seqNormalize p =
        if ¬ (sgn (seqGcd p) = 0) ∧ ¬ (seqGcd p - 1 = 0) then seqScaleDown p (seqGcd p) else p := by
      rw [hp]; rfl
    by_cases hzero : seqGcd p = 0
    · refine ⟨1, by omega, ?_, Or.inl (hz.mp hzero)⟩
      rw [hnorm, if_neg (by rw [sgn_eq_zero]; simp [hzero])]; simp
    · have hpos : 0 < seqGcd p := by omega
      have hk : ∀ x ∈ p, seqGcd p * (x.tdiv (seqGcd p)) = x := fun x hx =>
        Int.mul_tdiv_cancel' (hdvd x hx)
      have hrow : p = (seqScaleDown p (seqGcd p)).map (seqGcd p * ·) := by
        unfold seqScaleDown
        rw [List.map_map]
        conv_lhs => rw [← List.map_id p]
        exact List.map_congr_left (fun x hx => (hk x hx).symm)
      by_cases hone : seqGcd p - 1 = 0
      · refine ⟨1, by omega, ?_, Or.inr ?_⟩
        · rw [hnorm, if_neg (by simp [hone])]; simp
        · rw [hnorm, if_neg (by simp [hone])]
          have : seqGcd p = 1 := by omega
          rw [this] at h0 hdvd hmax
          exact ⟨h0, hdvd, hmax⟩
      · refine ⟨seqGcd p, hpos, ?_, Or.inr ⟨by omega, fun x _ => Int.one_dvd x, ?_⟩⟩
        · rw [hnorm, if_pos ⟨by rw [sgn_eq_zero]; exact hzero, hone⟩]; exact hrow
        · intro d hd
          rw [hnorm, if_pos ⟨by rw [sgn_eq_zero]; exact hzero, hone⟩] at hd
          -- gcd p * d divides every entry, hence divides gcd p
          have h2 : seqGcd p * d ∣ seqGcd p := hmax _ (fun x hx => by
            obtain ⟨t, ht⟩ := hd (x.tdiv (seqGcd p)) (List.mem_map.mpr ⟨x, hx, rfl⟩)
            refine ⟨t, ?_⟩
            have := hk x hx
            rw [ht] at this
            rw [← this]; ring)
          obtain ⟨t, ht⟩ := h2
          refine ⟨t, ?_⟩
          have h3 : seqGcd p * 1 = seqGcd p * (d * t) := by rw [Int.mul_one, ← Int.mul_assoc]; exact ht
          exact Int.eq_of_mul_eq_mul_left hzero h3

/-- C03: normalising a row changes neither the sign nor the zero-ness of its value at any point: the
constraints `row . x >= 0` and `row . x = 0` have the same solutions before and after. -/
theorem C03_same_solutions (p x : List Int) :
    (0 ≤ dot p x ↔ 0 ≤ dot (seqNormalize p) x) ∧ (dot p x = 0 ↔ dot (seqNormalize p) x = 0) := by
  obtain ⟨k, hk, he, _⟩ := C03_normalize p
  have : dot p x = k * dot (seqNormalize p) x := by
    conv_lhs => rw [he]
    exact dot_scale k _ _
  rw [this]
  constructor
  · exact mul_nonneg_iff_of_pos_left hk
  · constructor
    · intro h; rcases Int.mul_eq_zero.mp h with h | h
      · omega
      · exact h
    · intro h; rw [h, Int.mul_zero]

/-- C03: `cloog_seq_is_neg` recognises exactly opposite rows. -/
theorem C03_seq_is_neg : ∀ (p q : List Int), p.length = q.length →
    (seqIsNeg p q = true ↔ q = p.map (fun x => -x))
  | [], [], _ => by simp [seqIsNeg]
  | x :: xs, y :: ys, h => by
    have ih := C03_seq_is_neg xs ys (by simpa using h)
    unfold seqIsNeg
    rw [cabs_eq, cabs_eq]
    simp only [List.map_cons, List.cons.injEq]
    by_cases h1 : |x| - |y| ≠ 0
    · rw [if_pos h1]
      simp only [Bool.false_eq_true, false_iff, not_and]
      intro h2; exfalso; apply h1; rw [h2, abs_neg]; omega
    · rw [if_neg h1]
      have h1' : |x| = |y| := by omega
      by_cases h2 : sgn x = 0
      · rw [if_pos h2, ih]
        have hx := (sgn_eq_zero x).mp h2
        subst hx
        have : y = 0 := by rw [abs_zero] at h1'; exact abs_eq_zero.mp h1'.symm
        simp [this]
      · rw [if_neg h2]
        have hx : x ≠ 0 := fun h' => h2 ((sgn_eq_zero x).mpr h')
        by_cases h3 : x = y
        · rw [if_pos h3]
          simp only [Bool.false_eq_true, false_iff, not_and]
          intro h4; exfalso; omega
        · rw [if_neg h3, ih]
          have : y = -x := by
            rcases abs_eq_abs.mp h1' with h | h
            · exact absurd h h3
            · omega
          simp [this]

example : seqNormalize [4, -6, 0, 8] = [2, -3, 0, 4] ∧ seqGcd [4, -6, 0, 8] = 2 := by decide +kernel
example : seqIsNeg [4, -6, 0] [-4, 6, 0] = true := by decide

/-! ## C04 -/

/-- The comparison result has the sign of the order of the arguments. -/
def CmpExact (i j : Int) (r : Option Int) : Prop :=
  ∃ v, r = some v ∧ (v < 0 ↔ i < j) ∧ (v = 0 ↔ i = j) ∧ (v > 0 ↔ i > j)

/-- C04 is false in a build with 64-bit `cloog_int_t`: two values `2^32` apart compare as equal,
because the difference is stored in an `int`; and a difference of `2^31` has the wrong sign. -/
theorem C04_fixed_width_false :
    (InRange 64 (2 ^ 32) ∧ cmpFixed 64 (2 ^ 32) 0 = some 0) ∧
    (∃ v, cmpFixed 64 (2 ^ 31) 0 = some v ∧ v < 0) ∧
    ¬ (∀ i j, InRange 64 i → InRange 64 j → CmpExact i j (cmpFixed 64 i j)) := by
  have h : cmpFixed 64 (2 ^ 32) 0 = some 0 := by decide
  refine ⟨⟨by decide, h⟩, ⟨-2 ^ 31, by decide, by decide⟩, ?_⟩
  intro hall
  obtain ⟨v, hv, _, h2, _⟩ := hall (2 ^ 32) 0 (by decide) (by decide)
  rw [h] at hv
  injection hv with hv
  have := h2.mp hv.symm
  omega

/-- C04 is false in a build with 32-bit `cloog_int_t`: the subtraction overflows. -/
theorem C04_int_overflow_false :
    InRange 32 (2 ^ 31 - 1) ∧ InRange 32 (-1) ∧ cmpFixed 32 (2 ^ 31 - 1) (-1) = none := by decide

/-- C04, the part that holds: the comparison is exact as long as the difference of the arguments
fits in an `int` (any `cloog_int_t` of at least 32 bits). Missing for the full property: larger
differences, where the property is false (`C04_fixed_width_false`). With GMP the comparison is
`mpz_cmp`, exact by GMP's contract. -/
theorem C04_cmp_exact_partial (w : Nat) (hw : 32 ≤ w) (i j : Int)
    (h : InRange 32 (i - j)) : CmpExact i j (cmpFixed w i j) := by
  have hle : (2 : Int) ^ (32 - 1) ≤ 2 ^ (w - 1) := by
    exact_mod_cast Nat.pow_le_pow_right (by omega) (by omega : 32 - 1 ≤ w - 1)
  have hr : InRange w (i - j) := by
    unfold InRange at *; omega
  have hwr : wrap 32 (i - j) = i - j := by
    unfold wrap
    unfold InRange at h
    norm_num at h ⊢
    rw [Int.emod_eq_of_lt (by omega) (by omega)]
    omega
  refine ⟨i - j, ?_, by omega, by omega, by omega⟩
  unfold cmpFixed
  rw [chk_of hr, Option.map_some, hwr]

example : CmpExact 5 (-7) (cmpFixed 64 5 (-7)) := C04_cmp_exact_partial 64 (by decide) _ _ (by decide)

/-! ## C07 -/

/-- C07: the adjusted lower bound is the least integer at or above the original one that is
congruent to the offset modulo the stride. -/
theorem C07_least (val stride offset : Int) (hs : 0 < stride) :
    ∃ l, updateLowerBound val stride offset = some l ∧
      val ≤ l ∧ stride ∣ l - offset ∧ ∀ x, val ≤ x → stride ∣ x - offset → l ≤ x := by
  have hc : IsCeil (val - offset) stride (-(-(val - offset) / stride)) := by
    rw [isCeil_neg, Int.neg_neg]; exact isFloor_ediv _ _ hs
  unfold updateLowerBound
  rw [cdivQ_eq _ _ hs]
  generalize -(-(val - offset) / stride) = q at hc
  refine ⟨q * stride + offset, rfl, by have := hc.1; omega, ⟨q, by ring⟩, ?_⟩
  rintro x hx ⟨k, hk⟩
  have hq : q ≤ k := by
    by_contra hlt
    have h1 : k * stride ≤ (q - 1) * stride := by nlinarith
    have h2 := hc.2
    rw [Int.mul_comm] at hk
    omega
  have : q * stride ≤ k * stride := by nlinarith
  rw [Int.mul_comm] at hk
  omega

/-- C07: adjusting twice is the same as adjusting once. -/
theorem C07_idempotent (val stride offset l : Int) (hs : 0 < stride)
    (h : updateLowerBound val stride offset = some l) :
    updateLowerBound l stride offset = some l := by
  obtain ⟨l1, e1, _, d1, _⟩ := C07_least val stride offset hs
  rw [h] at e1; injection e1 with e1; subst e1
  obtain ⟨l2, e2, g2, d2, m2⟩ := C07_least l stride offset hs
  have := m2 l (Int.le_refl l) d1
  rw [e2]; congr 1; omega

/-- C07: stepping by the stride from the adjusted bound visits exactly the values at or above the
original bound that are congruent to the offset. -/
theorem C07_visits (val stride offset l : Int) (hs : 0 < stride)
    (h : updateLowerBound val stride offset = some l) (x : Int) :
    (val ≤ x ∧ stride ∣ x - offset) ↔ ∃ t : Nat, x = l + t * stride := by
  obtain ⟨l1, e1, g1, ⟨a, ha⟩, m1⟩ := C07_least val stride offset hs
  rw [h] at e1; injection e1 with e1; subst e1
  constructor
  · rintro ⟨hx, hd⟩
    have hle := m1 x hx hd
    obtain ⟨b, hb⟩ := hd
    have h1 : x - l = stride * (b - a) := by rw [Int.mul_sub]; omega
    have h2 : 0 ≤ b - a := by
      by_contra hneg
      have : stride * (b - a) < 0 := by nlinarith
      omega
    refine ⟨(b - a).toNat, ?_⟩
    rw [Int.toNat_of_nonneg h2, Int.mul_comm]; omega
  · rintro ⟨t, rfl⟩
    have : 0 ≤ (t : Int) * stride := by positivity
    refine ⟨by omega, ⟨a + t, ?_⟩⟩
    rw [Int.mul_add, Int.mul_comm stride (t : Int)]; omega

example : updateLowerBound (-7) 4 1 = some (-7) ∧ updateLowerBound (-6) 4 1 = some (-3) ∧
    updateLowerBound 3 5 2 = some 7 := by decide

/-! ## C16 -/

/-- C16: the extended Euclid routine terminates (it is a total function here) and returns the
non-negative gcd together with Bezout coefficients, for all arguments. -/
theorem C16_euclid (a b : Int) :
    0 ≤ (euclid a b).2.2 ∧ (euclid a b).2.2 ∣ a ∧ (euclid a b).2.2 ∣ b ∧
      (∀ d, d ∣ a → d ∣ b → d ∣ (euclid a b).2.2) ∧
      a * (euclid a b).1 + b * (euclid a b).2.1 = (euclid a b).2.2 := by
  obtain ⟨h1, h2⟩ := euclid_spec a b
  refine ⟨?_, ?_, ?_, ?_, h2⟩ <;> rw [h1]
  · omega
  · exact Int.gcd_dvd_left ..
  · exact Int.gcd_dvd_right ..
  · exact fun d h1 h2 => Int.dvd_coe_gcd h1 h2

example : euclid (-240) 46 = (9, 47, 2) := by decide +kernel

theorem foldl_gcd_dvd : ∀ (l : List Int) (g : Int),
    (l.foldl (fun (g v : Int) => (Int.gcd g v : Int)) g ∣ g) ∧
    ∀ x ∈ l, l.foldl (fun (g v : Int) => (Int.gcd g v : Int)) g ∣ x
  | [], g => ⟨Int.dvd_refl _, by simp⟩
  | y :: ys, g => by
    obtain ⟨h1, h2⟩ := foldl_gcd_dvd ys (Int.gcd g y : Int)
    refine ⟨Int.dvd_trans h1 (Int.gcd_dvd_left ..), ?_⟩
    intro x hx
    rcases List.mem_cons.mp hx with h | h
    · subst h; exact Int.dvd_trans h1 (Int.gcd_dvd_right ..)
    · exact h2 x h

theorem dvd_dot {g : Int} : ∀ (l xs : List Int), (∀ x ∈ l, g ∣ x) → g ∣ dot l xs
  | [], _, _ => by simp [dot]
  | _ :: _, [], _ => by simp [dot]
  | a :: as, x :: xs, h => by
    simp only [dot]
    exact Int.dvd_add (Dvd.dvd.mul_right (h a List.mem_cons_self) x)
      (dvd_dot as xs (fun y hy => h y (List.mem_cons_of_mem _ hy)))

/-- C16: the stride is right: two values of the iterator admitted by the constraint
`e + k*i + divs . a = 0`, for the same outer value `e`, differ by a multiple of the stride, and the
stride is at least 2 when one is returned. -/
theorem C16_stride_sound (k : Int) (divs : List Int) (hk : k ≠ 0) (s f : Int)
    (h : constructStride k divs = some (s, f)) :
    1 < s ∧ ∀ (e i i' : Int) (a a' : List Int),
      e + k * i + dot divs a = 0 → e + k * i' + dot divs a' = 0 → s ∣ i - i' := by
  unfold constructStride at h
  simp only [cabs_eq] at h
  generalize hg : divs.foldl (fun (g v : Int) => (Int.gcd g v : Int)) (0 : Int) = g at h
  have hgd : ∀ x ∈ divs, g ∣ x := by rw [← hg]; exact (foldl_gcd_dvd divs 0).2
  have hg0 : 0 ≤ g := by
    rw [← hg]
    have : ∀ (l : List Int) (g : Int), 0 ≤ g →
        0 ≤ l.foldl (fun (g v : Int) => (Int.gcd g v : Int)) g := by
      intro l; induction l with
      | nil => intro g h; exact h
      | cons y ys ih => intro g _; exact ih _ (Int.natCast_nonneg _)
    exact this divs 0 (by omega)
  have hka : |k| ≠ 0 := abs_ne_zero.mpr hk
  have hgcd : Int.gcd |k| g = Int.gcd k g := by
    rw [Int.gcd_def, Int.gcd_def, Int.natAbs_abs]
  rw [hgcd] at h
  have hv0 : (Int.gcd k g : Int) ≠ 0 := by
    intro h0
    have := Int.gcd_dvd_left k g
    rw [h0] at this
    exact hk (Int.zero_dvd.mp this)
  have hvd : (Int.gcd k g : Int) ∣ g := Int.gcd_dvd_right k g
  obtain ⟨t, ht⟩ := hvd
  have hst : g.tdiv (Int.gcd k g : Int) = t := by
    have h5 : ((Int.gcd k g : Int) * t).tdiv (Int.gcd k g : Int) = t := Int.mul_tdiv_cancel_left _ hv0
    rw [← ht] at h5
    exact h5
  rw [hst] at h
  by_cases hc : t = 0 ∨ t = 1
  · rw [if_pos hc] at h; cases h
  · rw [if_neg hc] at h
    injection h with h
    have hs : t = s := congrArg Prod.fst h
    subst hs
    have ht0 : 0 ≤ t := by
      by_contra hneg
      have : (Int.gcd k g : Int) * t < 0 := by
        have : (0 : Int) < Int.gcd k g := by omega
        nlinarith
      omega
    refine ⟨by omega, ?_⟩
    intro e i i' a a' h1 h2
    -- k * (i - i') is a multiple of g
    have hd : g ∣ k * (i - i') := by
      have e1 : k * (i - i') = dot divs a' - dot divs a := by rw [Int.mul_sub]; omega
      rw [e1]
      exact Int.dvd_sub (dvd_dot _ _ hgd) (dvd_dot _ _ hgd)
    -- divide by gcd k g
    obtain ⟨k', hk'⟩ := Int.gcd_dvd_left k g
    obtain ⟨u, hu⟩ := hd
    have e2 : k' * (i - i') = t * u := by
      have : (Int.gcd k g : Int) * (k' * (i - i')) = (Int.gcd k g : Int) * (t * u) := by
        rw [← Int.mul_assoc, ← hk', hu, ← Int.mul_assoc, ← ht]
      exact Int.eq_of_mul_eq_mul_left hv0 this
    have hcop : Int.gcd t k' = 1 := by
      have h3 : Int.gcd k g = Int.gcd k g * Int.gcd k' t := by
        have h4 := Int.gcd_mul_left (Int.gcd k g : Int) k' t
        rw [← hk', ← ht, Int.natAbs_natCast] at h4
        exact h4
      have hpos : 0 < Int.gcd k g := by omega
      have : 1 = Int.gcd k' t := Nat.eq_of_mul_eq_mul_left hpos (by rw [Nat.mul_one]; exact h3)
      rw [Int.gcd_comm]; exact this.symm
    exact Int.dvd_of_dvd_mul_right_of_gcd_one ⟨u, e2⟩ hcop

/-- C16 is false as stated: for the constraint `e + 2*i + 4*a = 0` the stride is 2 and the factor 0,
and `0 * 2` is not `-1` modulo 2. (The coefficient and the *reduced* gcd need not be coprime.) -/
theorem C16_factor_false :
    constructStride 2 [4] = some (2, 0) ∧ ¬ ((2 : Int) ∣ 0 * 2 - (-1)) := by
  refine ⟨by decide +kernel, by decide⟩

/-- C16, the part that holds: whenever the iterator's coefficient is coprime to the stride (for
instance whenever it is coprime to the gcd of the existential coefficients), the stored factor times
the coefficient is `-1` modulo the stride. Missing: the other coefficients, where it is false
(`C16_factor_false`). -/
theorem C16_factor_partial (k : Int) (divs : List Int) (s f : Int)
    (h : constructStride k divs = some (s, f)) (hcop : Int.gcd k s = 1) :
    s ∣ f * k - (-1) := by
  unfold constructStride at h
  simp only [cabs_eq] at h
  generalize divs.foldl (fun (g v : Int) => (Int.gcd g v : Int)) (0 : Int) = g at h
  generalize g.tdiv (Int.gcd |k| g : Int) = t at h
  by_cases hc : t = 0 ∨ t = 1
  · rw [if_pos hc] at h; cases h
  · rw [if_neg hc] at h
    injection h with h
    have hs : t = s := congrArg Prod.fst h
    have hf : (if sgn k > 0 then -(euclid |k| t).1 else (euclid |k| t).1) = f := congrArg Prod.snd h
    subst hs
    obtain ⟨h1, h2⟩ := euclid_spec |k| t
    have hgcd : Int.gcd |k| t = Int.gcd k t := by
      rw [Int.gcd_def, Int.gcd_def, Int.natAbs_abs]
    rw [h1, hgcd, hcop] at h2
    rw [← hf]
    by_cases hp : k > 0
    · rw [if_pos ((sgn_pos k).mpr hp)]
      rw [abs_of_pos hp] at h2 ⊢
      refine ⟨(euclid k t).2.1, ?_⟩
      push_cast at h2; linarith
    · rw [if_neg (fun h => hp ((sgn_pos k).mp h))]
      rw [abs_of_nonpos (by omega)] at h2 ⊢
      refine ⟨(euclid (-k) t).2.1, ?_⟩
      push_cast at h2; linarith

example : constructStride (-3) [7] = some (7, -2) ∧ Int.gcd (-3) 7 = 1 ∧ (7 : Int) ∣ -2 * -3 - (-1) := by
  refine ⟨by decide +kernel, by decide, by decide⟩

end Verif.Props.Arith
