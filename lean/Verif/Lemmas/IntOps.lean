import Verif.Model.IntOps
import Mathlib.Tactic.Ring
import Mathlib.Algebra.Order.Ring.Int
import Mathlib.Tactic.NormNum
import Mathlib.Data.List.GetD
import Mathlib.Algebra.Order.Ring.Abs

/-! Helper lemmas about the integer operations. -/

namespace Verif.IntOps

theorem neg_tdiv_floor (n d : Int) (hd : 0 < d) (hn : n < 0) :
    -((-n + d - 1).tdiv d) = n / d := by
  have hnn : 0 ≤ -n + d - 1 := by omega
  rw [Int.tdiv_eq_ediv_of_nonneg hnn]
  have h1 := Int.mul_ediv_add_emod (-n + d - 1) d
  have h2 := Int.emod_nonneg (-n + d - 1) (Int.ne_of_gt hd)
  have h3 := Int.emod_lt_of_pos (-n + d - 1) hd
  symm
  rw [Int.ediv_eq_iff_of_pos hd]
  constructor <;> nlinarith

theorem floord_eq (n d : Int) (hd : 0 < d) : floord n d = n / d := by
  unfold floord
  split
  · exact neg_tdiv_floor n d hd ‹_›
  · exact Int.tdiv_eq_ediv_of_nonneg (by omega)

theorem ceild_eq (n d : Int) (hd : 0 < d) : ceild n d = -((-n) / d) := by
  unfold ceild
  split
  · rw [Int.tdiv_eq_ediv_of_nonneg (by omega)]
  · have hnn : 0 ≤ n + d - 1 := by omega
    rw [Int.tdiv_eq_ediv_of_nonneg hnn]
    have h1 := Int.mul_ediv_add_emod (n + d - 1) d
    have h2 := Int.emod_nonneg (n + d - 1) (Int.ne_of_gt hd)
    have h3 := Int.emod_lt_of_pos (n + d - 1) hd
    have : (-n) / d = -((n + d - 1) / d) := by
      rw [Int.ediv_eq_iff_of_pos hd]
      constructor <;> nlinarith
    omega

theorem fdivQ_eq (i j : Int) (hj : 0 < j) : fdivQ i j = some (i / j) := by
  unfold fdivQ
  rw [if_pos hj]
  congr 1
  split
  · exact Int.tdiv_eq_ediv_of_nonneg (by omega)
  · exact neg_tdiv_floor i j hj (by omega)

theorem fdivR_eq (i j : Int) (hj : 0 < j) : fdivR i j = some (i % j) := by
  unfold fdivR
  rw [if_pos hj]
  congr 1
  split
  · exact Int.tmod_eq_emod_of_nonneg (by omega)
  · rename_i h
    have hnn : 0 ≤ -i + j - 1 := by omega
    rw [Int.tmod_eq_emod_of_nonneg hnn]
    have h2 := Int.emod_nonneg (-i + j - 1) (Int.ne_of_gt hj)
    have h3 := Int.emod_lt_of_pos (-i + j - 1) hj
    have h4 := neg_tdiv_floor i j hj (by omega)
    rw [Int.tdiv_eq_ediv_of_nonneg hnn] at h4
    have h1 := Int.mul_ediv_add_emod (-i + j - 1) j
    have h5 := Int.mul_ediv_add_emod i j
    rw [← h4] at h5
    nlinarith

theorem cdivQ_eq (i j : Int) (hj : 0 < j) : cdivQ i j = some (-((-i) / j)) := by
  have h := ceild_eq i j hj
  unfold ceild at h
  unfold cdivQ
  rw [if_pos hj]
  congr 1
  by_cases hi : i < 0
  · rw [if_pos hi] at h; rw [if_neg (by omega)]; exact h
  · rw [if_neg hi] at h; rw [if_pos (by omega)]; exact h

theorem cabs_eq (i : Int) : cabs i = |i| := by
  unfold cabs
  split
  · rw [abs_of_pos (by omega)]
  · rw [abs_of_nonpos (by omega)]

theorem sgn_eq_zero (i : Int) : sgn i = 0 ↔ i = 0 := by
  unfold sgn; split
  · constructor <;> intro <;> omega
  · split <;> constructor <;> intro <;> omega

theorem sgn_pos (i : Int) : sgn i > 0 ↔ i > 0 := by
  unfold sgn; split
  · constructor <;> intro <;> omega
  · split <;> constructor <;> intro <;> omega

theorem cgcd_eq (a b : Int) : cgcd a b = (Int.gcd a b : Int) := by
  induction a, b using cgcd.induct with
  | case1 b h =>
    rw [cgcd]; simp only [↓reduceDIte, Int.gcd_zero_left]
    split <;> omega
  | case2 b h =>
    rw [cgcd]; simp only [↓reduceDIte, Int.gcd_zero_left]
    split <;> omega
  | case3 a b h ih =>
    rw [cgcd, dif_neg h, ih]
    congr 1
    rw [Int.gcd_def, Int.natAbs_tmod, Int.gcd_def]
    exact (Nat.gcd_rec a.natAbs b.natAbs).symm

/-! ### rows -/

/-- gcd of a row. -/
def rowGcd : List Int → Nat
  | [] => 0
  | x :: xs => Nat.gcd x.natAbs (rowGcd xs)

theorem rowGcd_dvd {p : List Int} {x : Int} (hx : x ∈ p) : (rowGcd p : Int) ∣ x := by
  induction p with
  | nil => cases hx
  | cons y ys ih =>
    have h0 : (rowGcd (y :: ys)) = Nat.gcd y.natAbs (rowGcd ys) := rfl
    rcases List.mem_cons.mp hx with h | h
    · subst h
      rw [h0, Int.natCast_dvd]; exact Nat.gcd_dvd_left _ _
    · refine Int.dvd_trans ?_ (ih h)
      rw [h0, Int.natCast_dvd_natCast]; exact Nat.gcd_dvd_right _ _

theorem dvd_rowGcd {p : List Int} {d : Nat} (h : ∀ x ∈ p, (d : Int) ∣ x) : d ∣ rowGcd p := by
  induction p with
  | nil => exact Nat.dvd_zero d
  | cons y ys ih =>
    refine Nat.dvd_gcd ?_ (ih (fun x hx => h x (List.mem_cons_of_mem _ hx)))
    exact Int.natCast_dvd.mp (h y List.mem_cons_self)

theorem rowGcd_eq_zero {p : List Int} : rowGcd p = 0 ↔ ∀ x ∈ p, x = 0 := by
  induction p with
  | nil => simp [rowGcd]
  | cons y ys ih =>
    show Nat.gcd y.natAbs (rowGcd ys) = 0 ↔ _
    rw [Nat.gcd_eq_zero_iff, ih]
    simp

theorem seqFirstNonZero_none {p : List Int} : seqFirstNonZero p = none ↔ ∀ x ∈ p, x = 0 := by
  induction p with
  | nil => simp [seqFirstNonZero]
  | cons y ys ih =>
    unfold seqFirstNonZero
    by_cases h : sgn y = 0
    · have h0 := (sgn_eq_zero y).mp h
      rw [if_neg (by simp [h]), Option.map_eq_none_iff, ih]
      simp [h0]
    · have : y ≠ 0 := fun h' => h ((sgn_eq_zero y).mpr h')
      simp [h, this]

theorem seqFirstNonZero_some {p : List Int} {k : Nat} (h : seqFirstNonZero p = some k) :
    k < p.length ∧ p.getD k 0 ≠ 0 ∧ ∀ i < k, p.getD i 0 = 0 := by
  induction p generalizing k with
  | nil => simp [seqFirstNonZero] at h
  | cons y ys ih =>
    unfold seqFirstNonZero at h
    by_cases hy : sgn y = 0
    · rw [if_neg (by simpa using hy)] at h
      obtain ⟨k', hk', rfl⟩ := Option.map_eq_some_iff.mp h
      obtain ⟨h1, h2, h3⟩ := ih hk'
      refine ⟨by simpa using h1, by simpa using h2, ?_⟩
      intro i hi
      cases i with
      | zero => simpa using (sgn_eq_zero y).mp hy
      | succ i => simpa using h3 i (by omega)
    · rw [if_pos hy] at h
      injection h with h; subst h
      refine ⟨by simp, ?_, by omega⟩
      simpa using fun h' => hy ((sgn_eq_zero y).mpr h')

/-- Invariant of the minimum scan: the result is an index holding a non-zero entry. -/
theorem seqAbsMinGo_spec (p : List Int) : ∀ (rest : List Int) (i mi : Nat) (m : Int),
    rest = p.drop i → mi < p.length → p.getD mi 0 = m → m ≠ 0 →
    let r := seqAbsMinGo rest i mi m
    r.1 < p.length ∧ p.getD r.1 0 = r.2 ∧ r.2 ≠ 0 ∧ |r.2| ≤ |m| ∧
      ∀ x ∈ rest, x ≠ 0 → |r.2| ≤ |x| := by
  intro rest
  induction rest with
  | nil => intro i mi m _ h1 h2 h3; exact ⟨h1, h2, h3, le_refl _, by simp⟩
  | cons x xs ih =>
    intro i mi m hr h1 h2 h3
    have hlen : i < p.length := by
      by_contra hc
      rw [List.drop_eq_nil_of_le (by omega)] at hr; cases hr
    have hx : p.getD i 0 = x := by
      rw [List.drop_eq_getElem_cons hlen] at hr
      injection hr with hr1 _
      rw [List.getD_eq_getElem _ _ hlen, hr1]
    have hxs : xs = p.drop (i + 1) := by
      rw [List.drop_eq_getElem_cons hlen] at hr
      injection hr
    unfold seqAbsMinGo
    by_cases hz : sgn x = 0
    · rw [if_pos hz]
      obtain ⟨a, b, c, d, e⟩ := ih (i + 1) mi m hxs h1 h2 h3
      refine ⟨a, b, c, d, ?_⟩
      intro y hy hy0
      rcases List.mem_cons.mp hy with h | h
      · exact absurd ((sgn_eq_zero x).mp hz) (h ▸ hy0)
      · exact e y h hy0
    · rw [if_neg hz]
      have hx0 : x ≠ 0 := fun h' => hz ((sgn_eq_zero x).mpr h')
      by_cases hlt : cabs x - cabs m < 0
      · rw [if_pos hlt]
        rw [cabs_eq, cabs_eq] at hlt
        obtain ⟨a, b, c, d, e⟩ := ih (i + 1) i x hxs hlen hx hx0
        refine ⟨a, b, c, by omega, ?_⟩
        intro y hy hy0
        rcases List.mem_cons.mp hy with h | h
        · subst h; exact d
        · exact e y h hy0
      · rw [if_neg hlt]
        rw [cabs_eq, cabs_eq] at hlt
        obtain ⟨a, b, c, d, e⟩ := ih (i + 1) mi m hxs h1 h2 h3
        refine ⟨a, b, c, d, ?_⟩
        intro y hy hy0
        rcases List.mem_cons.mp hy with h | h
        · subst h; omega
        · exact e y h hy0

theorem seqAbsMinNonZero_some {p : List Int} {mi : Nat} {m : Int}
    (h : seqAbsMinNonZero p = some (mi, m)) :
    mi < p.length ∧ p.getD mi 0 = m ∧ m ≠ 0 := by
  unfold seqAbsMinNonZero at h
  cases hk : seqFirstNonZero p with
  | none => rw [hk] at h; cases h
  | some k =>
    rw [hk] at h
    injection h with h
    obtain ⟨h1, h2, _⟩ := seqFirstNonZero_some hk
    obtain ⟨a, b, c, _⟩ := seqAbsMinGo_spec p _ (k + 1) k _ rfl h1 rfl h2
    rw [h] at a b c
    exact ⟨a, b, c⟩

theorem seqAbsMinNonZero_none {p : List Int} (h : seqAbsMinNonZero p = none) :
    ∀ x ∈ p, x = 0 := by
  unfold seqAbsMinNonZero at h
  cases hk : seqFirstNonZero p with
  | none => exact seqFirstNonZero_none.mp hk
  | some k => rw [hk] at h; cases h

/-- The gcd loop returns the gcd of its accumulator and the entries scanned, except the one at
`min`. -/
theorem seqGcdGo_spec (p : List Int) (mi : Nat) (m : Int) (hm : p.getD mi 0 = m) :
    ∀ (rest : List Int) (i : Nat) (g : Nat), rest = p.drop i → 0 < g → (g : Int) ∣ m →
      seqGcdGo mi rest i g = (Nat.gcd g (rowGcd rest) : Nat) := by
  intro rest
  induction rest with
  | nil => intro i g _ _ _; simp [seqGcdGo, rowGcd]
  | cons x xs ih =>
    intro i g hr hg hdm
    have hlen : i < p.length := by
      by_contra hc
      rw [List.drop_eq_nil_of_le (by omega)] at hr; cases hr
    have hx : p.getD i 0 = x := by
      rw [List.drop_eq_getElem_cons hlen] at hr
      injection hr with hr1 _
      rw [List.getD_eq_getElem _ _ hlen, hr1]
    have hxs : xs = p.drop (i + 1) := by
      rw [List.drop_eq_getElem_cons hlen] at hr
      injection hr
    have hrg : rowGcd (x :: xs) = Nat.gcd x.natAbs (rowGcd xs) := rfl
    unfold seqGcdGo
    by_cases h1 : (g : Int) - 1 > 0
    · rw [if_pos h1]
      by_cases h2 : i = mi
      · rw [if_pos h2, ih (i + 1) g hxs hg hdm, hrg]
        have : g ∣ x.natAbs := by
          rw [← Int.natCast_dvd, ← hx, h2, hm]; exact hdm
        rw [← Nat.gcd_assoc, Nat.gcd_eq_left this]
      · rw [if_neg h2]
        by_cases h3 : sgn x = 0
        · rw [if_pos h3, ih (i + 1) g hxs hg hdm, hrg, (sgn_eq_zero x).mp h3]
          simp
        · rw [if_neg h3, cgcd_eq]
          have e1 : Int.gcd (g : Int) x = Nat.gcd g x.natAbs := by
            rw [Int.gcd_def, Int.natAbs_natCast]
          rw [e1, ih (i + 1) (Nat.gcd g x.natAbs) hxs (Nat.gcd_pos_of_pos_left _ hg)
            (Int.dvd_trans (Int.natCast_dvd_natCast.mpr (Nat.gcd_dvd_left _ _)) hdm), hrg,
            Nat.gcd_assoc]
    · rw [if_neg h1]
      have : g = 1 := by omega
      subst this; simp

theorem seqGcd_eq (p : List Int) : seqGcd p = (rowGcd p : Int) := by
  unfold seqGcd
  cases h : seqAbsMinNonZero p with
  | none =>
    have := seqAbsMinNonZero_none h
    rw [rowGcd_eq_zero.mpr this]; rfl
  | some r =>
    obtain ⟨mi, m⟩ := r
    obtain ⟨h1, h2, h3⟩ := seqAbsMinNonZero_some h
    have e : cabs m = ((m.natAbs : Nat) : Int) := by rw [cabs_eq]; exact (Int.natCast_natAbs m).symm
    show seqGcdGo mi p 0 (cabs m) = _
    rw [e, seqGcdGo_spec p mi m h2 p 0 m.natAbs (by simp) (Int.natAbs_pos.mpr h3)
      (Int.natAbs_dvd.mpr (Int.dvd_refl m))]
    congr 1
    refine Nat.gcd_eq_right ?_
    rw [← Int.natCast_dvd]
    refine rowGcd_dvd ?_
    rw [List.getD_eq_getElem _ _ h1] at h2
    rw [← h2]; exact List.getElem_mem h1

/-! ### extended Euclid -/

theorem euclidLoop_spec (A B : Int) : ∀ (c d e f : Int), 0 ≤ c → 0 ≤ d →
    (∃ e2, c = A * e + B * e2) → (∃ f2, d = A * f + B * f2) →
    (euclidLoop c d e f).1 = (Int.gcd c d : Int) ∧
      ∃ e2, (euclidLoop c d e f).1 = A * (euclidLoop c d e f).2 + B * e2 := by
  intro c d e f
  induction c, d, e, f using euclidLoop.induct with
  | case1 c d e f h ih =>
    intro hc hd ⟨e2, he⟩ ⟨f2, hf⟩
    have h1 : c - c.tdiv d * d = c % d := by
      rw [Int.tdiv_eq_ediv_of_nonneg hc]
      have := Int.mul_ediv_add_emod c d
      rw [Int.mul_comm d] at this
      omega
    rw [euclidLoop, dif_pos h]
    have := ih hd (by rw [h1]; exact Int.emod_nonneg _ (Int.ne_of_gt h.1)) ⟨f2, hf⟩
      ⟨e2 - c.tdiv d * f2, by
        have hh : c.tdiv d * d = c.tdiv d * (A * f + B * f2) := by rw [← hf]
        rw [hh, he]; ring_nf⟩
    refine ⟨?_, this.2⟩
    rw [this.1, h1]
    congr 1
    rw [Int.gcd_comm, Int.gcd_emod c d]
  | case2 c d e f h =>
    intro hc hd he hf
    rw [euclidLoop, dif_neg h]
    have hd0 : d = 0 := by
      by_contra hne
      exact h ⟨by omega, hc⟩
    subst hd0
    refine ⟨?_, he⟩
    simp only [Int.gcd_zero_right]
    omega

theorem euclid_spec (a b : Int) :
    (euclid a b).2.2 = (Int.gcd a b : Int) ∧
      a * (euclid a b).1 + b * (euclid a b).2.1 = (euclid a b).2.2 := by
  obtain ⟨h1, e2, h2⟩ := euclidLoop_spec |a| |b| |a| |b| 1 0 (abs_nonneg a) (abs_nonneg b)
    ⟨0, by simp⟩ ⟨1, by simp⟩
  have hg : Int.gcd |a| |b| = Int.gcd a b := by
    rw [Int.gcd_def, Int.gcd_def, Int.natAbs_abs, Int.natAbs_abs]
  unfold euclid
  simp only [cabs_eq]
  generalize hr : euclidLoop |a| |b| 1 0 = r at h1 h2
  obtain ⟨c, e⟩ := r
  simp only at h1 h2 ⊢
  refine ⟨by rw [h1, hg], ?_⟩
  -- the value of x
  generalize hx : (if sgn a = 0 then 0 else if sgn a > 0 then e else -e) = x
  have hax : a * x = |a| * e := by
    rw [← hx]
    by_cases ha : a = 0
    · subst ha; simp
    · rw [if_neg (fun h => ha ((sgn_eq_zero a).mp h))]
      by_cases hp : a > 0
      · rw [if_pos ((sgn_pos a).mpr hp), abs_of_pos hp]
      · rw [if_neg (fun h => hp ((sgn_pos a).mp h)), abs_of_neg (by omega)]; ring
  by_cases hb : b = 0
  · subst hb
    simp only [abs_zero, zero_mul, add_zero] at h2
    simp [sgn, hax, h2]
  · rw [if_neg (fun h => hb ((sgn_eq_zero b).mp h))]
    have hdvd : b ∣ c - a * x := by
      rw [hax, h2]
      have : |a| * e + |b| * e2 - |a| * e = |b| * e2 := by ring
      rw [this]
      exact Dvd.dvd.mul_right ((dvd_abs b b).mpr (Int.dvd_refl b)) _
    rw [Int.mul_tdiv_cancel' hdvd]
    omega

end Verif.IntOps
