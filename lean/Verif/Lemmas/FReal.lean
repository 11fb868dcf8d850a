import Verif.Model.FReal
import Mathlib.Algebra.Order.Round
import Mathlib.Tactic.Linarith
import Mathlib.Tactic.Ring
import Mathlib.Tactic.FieldSimp
import Mathlib.Tactic.Positivity
import Mathlib.Tactic.NormNum
import Mathlib.Tactic.Push

/-!
# Floors of rounded quotients
-/

namespace Verif.FReal

theorem float_int {p : Nat} {n : ℤ} (h : |n| ≤ 2 ^ p) : Float p (n : ℚ) := ⟨n, 0, h, by simp⟩

theorem float_neg {p : Nat} {y : ℚ} (h : Float p y) : Float p (-y) := by
  obtain ⟨m, e, h1, rfl⟩ := h
  exact ⟨-m, e, by rwa [abs_neg], by push_cast; ring⟩

theorem Nearest.exact {p : Nat} {rnd : ℚ → ℚ} (h : Nearest p rnd) {x : ℚ} (hx : Float p x) : rnd x = x := by
  have := (h x).2 x hx
  rw [sub_self, abs_zero] at this
  have := abs_nonpos_iff.1 this
  linarith

theorem Nearest.neg {p : Nat} {rnd : ℚ → ℚ} (h : Nearest p rnd) : Nearest p (fun x => - rnd (-x)) := by
  intro x
  refine ⟨float_neg (h (-x)).1, fun y hy => ?_⟩
  have := (h (-x)).2 (-y) (float_neg hy)
  rw [show x - -rnd (-x) = -(-x - rnd (-x)) by ring, abs_neg]
  rw [show x - y = -(-x - -y) by ring, abs_neg]
  exact this

/-- A number that is nearer than `n` on the other side. -/
theorem Nearest.lt {p : Nat} {rnd : ℚ → ℚ} (h : Nearest p rnd) {q n y : ℚ} (hy : Float p y) (h1 : q < n)
    (h2 : y < n) (h3 : 2 * q - n < y) : rnd q < n := by
  by_contra hc
  push Not at hc
  have := (h q).2 y hy
  have e1 : |q - rnd q| = rnd q - q := by rw [abs_sub_comm]; exact abs_of_nonneg (by linarith)
  rw [e1] at this
  have : |q - y| < n - q := abs_lt.2 ⟨by linarith, by linarith⟩
  linarith

theorem Nearest.ge {p : Nat} {rnd : ℚ → ℚ} (h : Nearest p rnd) {q n : ℚ} (hn : Float p n) (h1 : n ≤ q) :
    n ≤ rnd q := by
  by_contra hc
  push Not at hc
  have := (h q).2 n hn
  rw [abs_of_nonneg (by linarith : (0 : ℚ) ≤ q - n), abs_of_nonneg (by linarith : (0 : ℚ) ≤ q - rnd q)] at this
  linarith

/-- A power of two below a positive number. -/
theorem pow_below (n : ℕ) (h : 1 ≤ n) : ∃ j, 2 ^ j ≤ n ∧ n < 2 ^ (j + 1) :=
  ⟨Nat.log 2 n, Nat.pow_log_le_self 2 (by omega), Nat.lt_pow_succ_log_self (by omega) n⟩

/-- **Floors of quotients are exact** for operands of at most `p` digits. -/
theorem floor_quot {p : Nat} {rnd : ℚ → ℚ} (h : Nearest p rnd) {a b : ℤ} (ha : |a| ≤ 2 ^ p) (hb : 1 ≤ b)
    (hb' : b ≤ 2 ^ p) : ⌊rnd (rnd a / rnd b)⌋ = a / b := by
  have hb0 : (0 : ℚ) < b := by exact_mod_cast (by omega : (0 : ℤ) < b)
  rw [h.exact (float_int ha), h.exact (float_int (by rw [abs_of_nonneg (by omega)]; exact hb'))]
  have ha2 := abs_le.1 ha
  set k := a / b with hk
  have hm : b * k + a % b = a := Int.mul_ediv_add_emod a b
  have hr0 := Int.emod_nonneg a (by omega : b ≠ 0)
  have hr1 := Int.emod_lt_of_pos a (by omega : 0 < b)
  have hkq : (k : ℚ) ≤ (a : ℚ) / b := by
    rw [le_div_iff₀ hb0]
    exact_mod_cast (by nlinarith : k * b ≤ a)
  have hkabs : |k| ≤ 2 ^ p := by
    rw [abs_le]
    constructor <;> nlinarith
  rw [Int.floor_eq_iff]
  refine ⟨h.ge (float_int hkabs) hkq, ?_⟩
  -- the quotient is an integer, or at least 1/b below the next one
  by_cases hz : a % b = 0
  · have : (a : ℚ) / b = (k : ℚ) := by
      rw [div_eq_iff hb0.ne']
      exact_mod_cast (by linarith : a = k * b)
    rw [this, h.exact (float_int hkabs)]
    linarith
  · have hr2 : 1 ≤ a % b := by omega
    have hq1 : (a : ℚ) / b ≤ k + 1 - 1 / b := by
      rw [div_le_iff₀ hb0, sub_mul, div_mul_cancel₀ _ hb0.ne']
      exact_mod_cast (by nlinarith : a ≤ (k + 1) * b - 1)
    have hinv : (0 : ℚ) < 1 / b := by positivity
    have hinv2 : 1 / (2 : ℚ) ^ p ≤ 1 / b := by
      apply one_div_le_one_div_of_le hb0
      exact_mod_cast hb'
    rcases lt_trichotomy k (-1) with hk1 | hk1 | hk1
    · -- below -1: the next integer is -N
      obtain ⟨N, hN⟩ : ∃ N : ℕ, (N : ℤ) = -(k + 1) := ⟨(-(k + 1)).toNat, by omega⟩
      obtain ⟨j, hj1, hj2⟩ := pow_below N (by omega)
      have hlt : (2 : ℤ) ^ j * b < 2 ^ p := by
        have h1 : (2 : ℤ) ^ j ≤ N := by exact_mod_cast hj1
        have h2 : (N : ℤ) * b < -a := by nlinarith
        nlinarith
      have hjp : j < p := by
        by_contra hc
        push Not at hc
        have : (2 : ℤ) ^ p ≤ 2 ^ j := pow_le_pow_right₀ (by norm_num) hc
        nlinarith
      obtain ⟨d, rfl⟩ : ∃ d, p = j + 1 + d := ⟨p - j - 1, by omega⟩
      have hD : (0 : ℚ) < 2 ^ d := by positivity
      have hfl : Float (j + 1 + d) (((k : ℚ) + 1) - 1 / 2 ^ d) := by
        refine ⟨-((N : ℤ) * 2 ^ d + 1), -(d : ℤ), ?_, ?_⟩
        · rw [abs_neg, abs_of_nonneg (by positivity)]
          have : (N : ℤ) + 1 ≤ 2 ^ (j + 1) := by exact_mod_cast hj2
          have h2 : (1 : ℤ) ≤ 2 ^ d := one_le_pow₀ (by norm_num)
          rw [pow_add]
          nlinarith
        · have : ((N : ℤ) : ℚ) = -((k : ℚ) + 1) := by rw [hN]; push_cast; ring
          rw [zpow_neg, zpow_natCast]
          push_cast at this ⊢
          rw [this]
          field_simp
          ring
      have hkey : 1 / (2 : ℚ) ^ d < 2 * (1 / b) := by
        rw [div_lt_iff₀ hD]
        rw [show 2 * (1 / (b : ℚ)) * 2 ^ d = (2 * 2 ^ d) / b by ring, lt_div_iff₀ hb0, one_mul]
        have : (2 : ℤ) ^ j * b < 2 ^ j * (2 * 2 ^ d) := by
          rw [show (2 : ℤ) ^ j * (2 * 2 ^ d) = 2 ^ (j + 1 + d) by rw [pow_add, pow_add]; ring]
          exact hlt
        have := lt_of_mul_lt_mul_left this (by positivity)
        exact_mod_cast this
      refine h.lt hfl ?_ ?_ ?_
      · linarith
      · have : (0 : ℚ) < 1 / 2 ^ d := by positivity
        linarith
      · linarith
    · -- the next integer is 0
      have e0 : ((k : ℚ) + 1) = 0 := by rw [hk1]; norm_num
      have hfl : Float p (-(1 / 2 ^ p) : ℚ) := by
        refine ⟨-1, -(p : ℤ), ?_, ?_⟩
        · rw [abs_neg, abs_one]; exact one_le_pow₀ (by norm_num)
        · rw [zpow_neg, zpow_natCast]; push_cast; ring
      have hp0 : (0 : ℚ) < 1 / 2 ^ p := by positivity
      rw [e0] at hq1 ⊢
      refine h.lt hfl ?_ ?_ ?_ <;> linarith
    · -- the next integer is positive
      obtain ⟨N, hN⟩ : ∃ N : ℕ, (N : ℤ) = k + 1 := ⟨(k + 1).toNat, by omega⟩
      by_cases hk0 : k = 0
      · have hfl : Float p (1 - 1 / 2 ^ p : ℚ) := by
          refine ⟨2 ^ p - 1, -(p : ℤ), ?_, ?_⟩
          · have : (1 : ℤ) ≤ 2 ^ p := one_le_pow₀ (by norm_num)
            rw [abs_of_nonneg (by omega)]; omega
          · rw [zpow_neg, zpow_natCast]; push_cast
            field_simp
        have hp0 : (0 : ℚ) < 1 / 2 ^ p := by positivity
        have e0 : ((k : ℚ) + 1) = 1 := by rw [hk0]; norm_num
        rw [e0] at hq1 ⊢
        refine h.lt hfl ?_ ?_ ?_ <;> linarith
      · obtain ⟨K, hK⟩ : ∃ K : ℕ, (K : ℤ) = k := ⟨k.toNat, by omega⟩
        obtain ⟨j, hj1, hj2⟩ := pow_below K (by omega)
        have hlt : (2 : ℤ) ^ j * b < 2 ^ p := by
          have h1 : (2 : ℤ) ^ j ≤ K := by exact_mod_cast hj1
          have h2 : (K : ℤ) * b < a := by rw [hK]; nlinarith
          nlinarith
        have hjp : j < p := by
          by_contra hc
          push Not at hc
          have : (2 : ℤ) ^ p ≤ 2 ^ j := pow_le_pow_right₀ (by norm_num) hc
          nlinarith
        obtain ⟨d, rfl⟩ : ∃ d, p = j + 1 + d := ⟨p - j - 1, by omega⟩
        have hD : (0 : ℚ) < 2 ^ d := by positivity
        have hfl : Float (j + 1 + d) (((k : ℚ) + 1) - 1 / 2 ^ d) := by
          refine ⟨(N : ℤ) * 2 ^ d - 1, -(d : ℤ), ?_, ?_⟩
          · have h2 : (1 : ℤ) ≤ 2 ^ d := one_le_pow₀ (by norm_num)
            have h3 : (K : ℤ) + 1 ≤ 2 ^ (j + 1) := by exact_mod_cast hj2
            have h4 : (1 : ℤ) ≤ N := by omega
            have h5 : (N : ℤ) ≤ 2 ^ (j + 1) := by omega
            rw [abs_of_nonneg (by nlinarith), pow_add]
            nlinarith
          · have : ((N : ℤ) : ℚ) = (k : ℚ) + 1 := by rw [hN]; push_cast; ring
            rw [zpow_neg, zpow_natCast]
            push_cast at this ⊢
            rw [this]
            field_simp
        have hkey : 1 / (2 : ℚ) ^ d < 2 * (1 / b) := by
          rw [div_lt_iff₀ hD]
          rw [show 2 * (1 / (b : ℚ)) * 2 ^ d = (2 * 2 ^ d) / b by ring, lt_div_iff₀ hb0, one_mul]
          have : (2 : ℤ) ^ j * b < 2 ^ j * (2 * 2 ^ d) := by
            rw [show (2 : ℤ) ^ j * (2 * 2 ^ d) = 2 ^ (j + 1 + d) by rw [pow_add, pow_add]; ring]
            exact hlt
          have := lt_of_mul_lt_mul_left this (by positivity)
          exact_mod_cast this
        refine h.lt hfl ?_ ?_ ?_
        · linarith
        · have : (0 : ℚ) < 1 / 2 ^ d := by positivity
          linarith
        · linarith

/-- **Ceilings of quotients are exact** for operands of at most `p` digits. -/
theorem ceil_quot {p : Nat} {rnd : ℚ → ℚ} (h : Nearest p rnd) {a b : ℤ} (ha : |a| ≤ 2 ^ p) (hb : 1 ≤ b)
    (hb' : b ≤ 2 ^ p) : ⌈rnd (rnd a / rnd b)⌉ = -((-a) / b) := by
  have := floor_quot h.neg (a := -a) (by rwa [abs_neg]) hb hb'
  rw [← this]
  rw [h.neg.exact (float_int (by rwa [abs_neg])),
    h.neg.exact (float_int (by rw [abs_of_nonneg (by omega)]; exact hb')),
    h.exact (float_int ha), h.exact (float_int (by rw [abs_of_nonneg (by omega)]; exact hb'))]
  push_cast
  rw [Int.floor_neg, neg_neg]
  congr 2
  ring

/-- With one more digit it is wrong: all roundings to nearest give the same wrong floor. -/
theorem floor_wrong {p : Nat} (hp : 1 ≤ p) {rnd : ℚ → ℚ} (h : Nearest p rnd) :
    ⌊rnd (rnd ((2 ^ (p + 2) - 1 : ℤ) : ℚ) / rnd ((2 : ℤ) : ℚ))⌋ = 2 ^ (p + 1) := by
  have h2 : rnd ((2 : ℤ) : ℚ) = 2 := by
    rw [h.exact ⟨1, 1, by rw [abs_one]; exact one_le_pow₀ (by norm_num), by norm_num⟩]
    norm_num
  have hP : (2 : ℤ) ≤ 2 ^ p := by
    calc (2 : ℤ) = 2 ^ 1 := by norm_num
      _ ≤ 2 ^ p := pow_le_pow_right₀ (by norm_num) hp
  have h1 : rnd ((2 ^ (p + 2) - 1 : ℤ) : ℚ) = 2 ^ (p + 2) := by
    obtain ⟨⟨m, e, hm, hr⟩, hn⟩ := h ((2 ^ (p + 2) - 1 : ℤ) : ℚ)
    have hd := hn (2 ^ (p + 2)) ⟨2 ^ p, 2, by rw [abs_of_nonneg (by positivity)], by
      push_cast; rw [pow_add]; norm_num⟩
    rw [show ((2 ^ (p + 2) - 1 : ℤ) : ℚ) - 2 ^ (p + 2) = -1 by push_cast; ring, abs_neg, abs_one] at hd
    have hd' := abs_le.1 hd
    have hx : ((2 ^ (p + 2) - 1 : ℤ) : ℚ) = 4 * 2 ^ p - 1 := by push_cast; rw [pow_add]; ring
    rw [hx] at hd' hr ⊢
    have hlow : 4 * (2 : ℚ) ^ p - 2 ≤ rnd (4 * 2 ^ p - 1) := by linarith [hd'.2]
    have hhigh : rnd (4 * 2 ^ p - 1) ≤ 4 * (2 : ℚ) ^ p := by linarith [hd'.1]
    have hPq : (2 : ℚ) ≤ 2 ^ p := by exact_mod_cast hP
    have hpos : (0 : ℚ) < (2 : ℚ) ^ e := by positivity
    -- the exponent is at least 2
    have he : 2 ≤ e := by
      by_contra hc
      have hle : (2 : ℚ) ^ e ≤ 2 := by
        calc (2 : ℚ) ^ e ≤ 2 ^ (1 : ℤ) := zpow_le_zpow_right₀ (by norm_num) (by omega)
          _ = 2 := by norm_num
      have hm' : (m : ℚ) ≤ 2 ^ p := by exact_mod_cast (abs_le.1 hm).2
      have : (m : ℚ) * 2 ^ e ≤ 2 ^ p * 2 := by
        calc (m : ℚ) * 2 ^ e ≤ 2 ^ p * 2 ^ e := by apply mul_le_mul_of_nonneg_right hm' hpos.le
          _ ≤ 2 ^ p * 2 := by apply mul_le_mul_of_nonneg_left hle; positivity
      rw [hr] at hlow
      linarith
    obtain ⟨f, rfl⟩ : ∃ f : ℕ, e = f + 2 := ⟨(e - 2).toNat, by omega⟩
    have hmul : rnd (4 * 2 ^ p - 1) = ((4 * (m * 2 ^ f) : ℤ) : ℚ) := by
      rw [hr, zpow_add₀ (by norm_num), zpow_natCast]
      push_cast
      norm_num
      ring
    rw [hmul] at hlow hhigh ⊢
    have l1 : 4 * (2 : ℤ) ^ p - 2 ≤ 4 * (m * 2 ^ f) := by exact_mod_cast hlow
    have l2 : 4 * (m * 2 ^ f) ≤ 4 * (2 : ℤ) ^ p := by exact_mod_cast hhigh
    have l3 : 4 * (m * 2 ^ f) = 4 * (2 : ℤ) ^ p := by omega
    rw [l3]
    push_cast
    rw [pow_add]
    ring
  rw [h1, h2]
  have hq : (2 : ℚ) ^ (p + 2) / 2 = 2 ^ (p + 1) := by rw [pow_succ]; ring
  rw [hq, h.exact ⟨2 ^ p, 1, by rw [abs_of_nonneg (by positivity)], by push_cast; rw [pow_succ]⟩]
  rw [show (2 : ℚ) ^ (p + 1) = ((2 ^ (p + 1) : ℤ) : ℚ) by push_cast; rfl, Int.floor_intCast]

/-- There is a rounding to nearest. -/
theorem exists_pos (p : Nat) (hp : 1 ≤ p) (x : ℚ) (hx : 0 < x) :
    ∃ r, Float p r ∧ ∀ y, Float p y → |x - r| ≤ |x - y| := by
  obtain ⟨q, rfl⟩ : ∃ q, p = q + 1 := ⟨p - 1, by omega⟩
  set e : ℤ := Int.log 2 x - q with he
  have h1 : (2 : ℚ) ^ (e + q) ≤ x := by
    rw [he, sub_add_cancel]
    exact_mod_cast Int.zpow_log_le_self (b := 2) (by norm_num) hx
  have h2 : x < (2 : ℚ) ^ (e + q + 1) := by
    rw [he, sub_add_cancel]
    exact_mod_cast Int.lt_zpow_succ_log_self (b := 2) (by norm_num) x
  have hE : (0 : ℚ) < (2 : ℚ) ^ e := by positivity
  have h3 : (2 : ℚ) ^ q ≤ x / 2 ^ e := by
    rw [le_div_iff₀ hE, ← zpow_natCast, ← zpow_add₀ (by norm_num), add_comm]
    exact h1
  have h4 : x / 2 ^ e ≤ (2 : ℚ) ^ (q + 1) := by
    rw [div_le_iff₀ hE, ← zpow_natCast, ← zpow_add₀ (by norm_num)]
    refine le_of_lt (lt_of_lt_of_eq h2 ?_)
    congr 1
    push_cast
    ring
  have hmult : ∀ z : ℤ, |x - round (x / 2 ^ e) * (2 : ℚ) ^ e| ≤ |x - z * (2 : ℚ) ^ e| := by
    intro z
    have := round_le (x / (2 : ℚ) ^ e) z
    have key : ∀ w : ℚ, |x - w * (2 : ℚ) ^ e| = |x / 2 ^ e - w| * 2 ^ e := by
      intro w
      rw [show x - w * (2 : ℚ) ^ e = (x / 2 ^ e - w) * 2 ^ e by field_simp, abs_mul, abs_of_pos hE]
    rw [key, key]
    exact mul_le_mul_of_nonneg_right this hE.le
  refine ⟨round (x / 2 ^ e) * (2 : ℚ) ^ e, ⟨round (x / 2 ^ e), e, ?_, rfl⟩, ?_⟩
  · have hr := round_le (x / (2 : ℚ) ^ e) (2 ^ (q + 1))
    have hr0 := abs_sub_round (x / (2 : ℚ) ^ e)
    rw [abs_le]
    have hq1 : (1 : ℚ) ≤ 2 ^ q := one_le_pow₀ (by norm_num)
    have hr0' := abs_le.1 hr0
    constructor
    · have : (0 : ℚ) ≤ round (x / (2 : ℚ) ^ e) := by linarith [hr0'.2]
      have h0 : (0 : ℤ) ≤ round (x / (2 : ℚ) ^ e) := by exact_mod_cast this
      have : (0 : ℤ) ≤ 2 ^ (q + 1) := by positivity
      linarith
    · have : (round (x / (2 : ℚ) ^ e) : ℚ) < 2 ^ (q + 1) + 1 := by linarith [hr0'.1]
      have : round (x / (2 : ℚ) ^ e) < 2 ^ (q + 1) + 1 := by exact_mod_cast this
      omega
  · rintro y ⟨m, f, hm, rfl⟩
    by_cases hf : e ≤ f
    · obtain ⟨d, rfl⟩ : ∃ d : ℕ, f = e + d := ⟨(f - e).toNat, by omega⟩
      have : (m : ℚ) * 2 ^ (e + (d : ℤ)) = ((m * 2 ^ d : ℤ) : ℚ) * 2 ^ e := by
        rw [zpow_add₀ (by norm_num), zpow_natCast]; push_cast; ring
      rw [this]
      exact hmult _
    · have hy : (m : ℚ) * 2 ^ f ≤ 2 ^ (e + q) := by
        have hm' : (m : ℚ) ≤ 2 ^ (q + 1) := by exact_mod_cast (abs_le.1 hm).2
        calc (m : ℚ) * 2 ^ f ≤ 2 ^ (q + 1) * 2 ^ f := mul_le_mul_of_nonneg_right hm' (by positivity)
          _ = (2 : ℚ) ^ (f + 1 + q) := by
            rw [← zpow_natCast, ← zpow_add₀ (by norm_num)]
            congr 1; push_cast; ring
          _ ≤ (2 : ℚ) ^ (e + q) := zpow_le_zpow_right₀ (by norm_num) (by omega)
      have hL := hmult (2 ^ q)
      have e1 : ((2 ^ q : ℤ) : ℚ) * (2 : ℚ) ^ e = 2 ^ (e + q) := by
        rw [zpow_add₀ (by norm_num), zpow_natCast]; push_cast; ring
      rw [e1, abs_of_nonneg (by linarith : (0 : ℚ) ≤ x - 2 ^ (e + q))] at hL
      have : x - (2 : ℚ) ^ (e + q) ≤ |x - m * 2 ^ f| := le_trans (by linarith) (le_abs_self _)
      linarith

theorem exists_nearest (p : Nat) (hp : 1 ≤ p) : ∃ rnd, Nearest p rnd := by
  have : ∀ x : ℚ, ∃ r, Float p r ∧ ∀ y, Float p y → |x - r| ≤ |x - y| := by
    intro x
    rcases lt_trichotomy x 0 with h | h | h
    · obtain ⟨r, h1, h2⟩ := exists_pos p hp (-x) (by linarith)
      refine ⟨-r, float_neg h1, fun y hy => ?_⟩
      have := h2 (-y) (float_neg hy)
      rw [show x - -r = -(-x - r) by ring, abs_neg, show x - y = -(-x - -y) by ring, abs_neg]
      exact this
    · subst h
      exact ⟨0, ⟨0, 0, by simp, by simp⟩, fun y _ => by simp⟩
    · exact exists_pos p hp x h
  choose rnd h using this
  exact ⟨rnd, h⟩

end Verif.FReal
