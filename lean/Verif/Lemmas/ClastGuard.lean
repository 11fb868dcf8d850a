import Verif.Lemmas.ClastDom

/-!
# What the guard of a loop lets through
-/

namespace Verif.ClastGen

open Verif.IntOps Verif.Clast Verif.Bound Verif.Props.Arith Verif.Props.Bounds Verif.Props.Guards

/-! ## Strides -/

/-- The parts of `Stride.holds` that do not depend on the point. -/
def Stride.wf (s : Stride) (col nPar : Nat) : Prop :=
  match s.con with
  | none => True
  | some c => nPar ≤ c.coef.length ∧ col + 1 ≤ c.coef.length - nPar ∧
      s.stride ∣ s.factor * c.at col + 1

/-- The columns a stride constraint uses besides its own. -/
def Stride.uses (s : Stride) (col : Nat) (ok : Nat → Bool) : Prop :=
  ∀ c, s.con = some c → ∀ i, i < col → c.at i ≠ 0 → ok i = true

theorem conVal_eq (c : Row) (col nb nPar : Nat) (y : Point) (h1 : nPar ≤ c.coef.length)
    (h2 : col + 1 ≤ c.coef.length - nPar) :
    Stride.conVal c col nb nPar y = (∑ k ∈ Finset.range col, c.at k * y k) + c.at col * y col +
      (∑ q ∈ Finset.range nPar, c.at (c.coef.length - nPar + q) * y (nb + q)) + c.cst := by
  unfold Stride.conVal
  rw [sum_take c col (by omega), sum_drop c nb nPar h1]

theorem conVal_congr (c : Row) (col nb nb' nPar : Nat) (y y' : Point) (h1 : nPar ≤ c.coef.length)
    (h2 : col + 1 ≤ c.coef.length - nPar) (hy : ∀ k, k ≤ col → y k = y' k)
    (hp : ∀ q, q < nPar → y (nb + q) = y' (nb' + q)) :
    Stride.conVal c col nb nPar y = Stride.conVal c col nb' nPar y' := by
  rw [conVal_eq c col nb nPar y h1 h2, conVal_eq c col nb' nPar y' h1 h2, hy col (by omega)]
  congr 2
  · congr 1
    exact Finset.sum_congr rfl (fun k hk => by rw [hy k (by have := Finset.mem_range.mp hk; omega)])
  · exact Finset.sum_congr rfl (fun k hk => by rw [hp k (Finset.mem_range.mp hk)])

theorem Stride.holds_congr (s : Stride) (col nb nb' nPar : Nat) (y y' : Point)
    (hy : ∀ k, k ≤ col → y k = y' k) (hp : ∀ q, q < nPar → y (nb + q) = y' (nb' + q)) :
    s.holds col nb nPar y ↔ s.holds col nb' nPar y' := by
  unfold Stride.holds
  cases s.con with
  | none => simp only; rw [hy col (by omega)]
  | some c =>
    simp only
    refine and_congr_right (fun h1 => and_congr_right (fun h2 => and_congr_right (fun _ => ?_)))
    rw [conVal_congr c col nb nb' nPar y y' h1 h2 hy hp]

theorem conVal_update (c : Row) (col nb nPar : Nat) (y : Point) (v : Int)
    (h1 : nPar ≤ c.coef.length) (h2 : col + 1 ≤ c.coef.length - nPar) (h3 : col < nb) :
    Stride.conVal c col nb nPar (Function.update y col v) =
      Stride.conVal c col nb nPar (Function.update y col 0) + c.at col * v := by
  rw [conVal_eq c col nb nPar _ h1 h2, conVal_eq c col nb nPar _ h1 h2]
  have e1 : ∀ w, (∑ k ∈ Finset.range col, c.at k * Function.update y col w k) =
      ∑ k ∈ Finset.range col, c.at k * y k := fun w =>
    Finset.sum_congr rfl (fun k hk => by
      rw [Function.update_of_ne (by have := Finset.mem_range.mp hk; omega)])
  have e2 : ∀ w, (∑ q ∈ Finset.range nPar, c.at (c.coef.length - nPar + q) *
      Function.update y col w (nb + q)) =
      ∑ q ∈ Finset.range nPar, c.at (c.coef.length - nPar + q) * y (nb + q) := fun w =>
    Finset.sum_congr rfl (fun k _ => by rw [Function.update_of_ne (by omega)])
  rw [e1, e1, e2, e2]
  simp only [Function.update_self]
  ring

/-- Some value of its iterator satisfies the stride. -/
theorem Stride.exists_holds (s : Stride) (col nb nPar : Nat) (y : Point) (hw : s.wf col nPar)
    (h3 : col < nb) : ∃ v, s.holds col nb nPar (Function.update y col v) := by
  unfold Stride.wf at hw
  unfold Stride.holds
  cases hc : s.con with
  | none => exact ⟨s.offset, by simp⟩
  | some c =>
    rw [hc] at hw
    simp only at hw ⊢
    obtain ⟨h1, h2, hd⟩ := hw
    refine ⟨s.factor * Stride.conVal c col nb nPar (Function.update y col 0), h1, h2, hd, ?_⟩
    rw [conVal_update c col nb nPar y _ h1 h2 h3]
    obtain ⟨q, hq⟩ := hd
    refine ⟨q * Stride.conVal c col nb nPar (Function.update y col 0), ?_⟩
    have e : s.stride * (q * Stride.conVal c col nb nPar (Function.update y col 0)) =
        (s.stride * q) * Stride.conVal c col nb nPar (Function.update y col 0) := by ring
    rw [e, ← hq]
    ring

/-- Values allowed by a stride differ by multiples of it. -/
theorem Stride.diff (s : Stride) (col nb nPar : Nat) (y : Point) (v w : Int) (h3 : col < nb)
    (hv : s.holds col nb nPar (Function.update y col v))
    (hw : s.holds col nb nPar (Function.update y col w)) : s.stride ∣ v - w := by
  unfold Stride.holds at hv hw
  cases hc : s.con with
  | none =>
    rw [hc] at hv hw
    simp only [Function.update_self] at hv hw
    have := Int.dvd_sub hv hw
    simpa using this
  | some c =>
    rw [hc] at hv hw
    simp only at hv hw
    obtain ⟨h1, h2, hd, hv⟩ := hv
    obtain ⟨_, _, _, hw⟩ := hw
    rw [conVal_update c col nb nPar y _ h1 h2 h3] at hv hw
    have h4 : s.stride ∣ c.at col * (v - w) := by
      have := Int.dvd_sub hv hw
      have e : Stride.conVal c col nb nPar (Function.update y col 0) + c.at col * v -
        (Stride.conVal c col nb nPar (Function.update y col 0) + c.at col * w) = c.at col * (v - w) := by
        ring
      rwa [e] at this
    have h5 : s.stride ∣ (s.factor * c.at col + 1) * (v - w) := Dvd.dvd.mul_right hd _
    have h6 : s.stride ∣ s.factor * (c.at col * (v - w)) := Dvd.dvd.mul_left h4 _
    have := Int.dvd_sub h5 h6
    have e : (s.factor * c.at col + 1) * (v - w) - s.factor * (c.at col * (v - w)) = v - w := by ring
    rwa [e] at this

theorem Stride.shift (s : Stride) (col nb nPar : Nat) (y : Point) (v w : Int) (h3 : col < nb)
    (hv : s.holds col nb nPar (Function.update y col v)) (hd : s.stride ∣ w - v) :
    s.holds col nb nPar (Function.update y col w) := by
  unfold Stride.holds at hv ⊢
  cases hc : s.con with
  | none =>
    rw [hc] at hv
    simp only [Function.update_self] at hv ⊢
    have := Int.dvd_add hd hv
    have e : w - v + (v - s.offset) = w - s.offset := by ring
    rwa [e] at this
  | some c =>
    rw [hc] at hv
    simp only at hv ⊢
    obtain ⟨h1, h2, h0, hv⟩ := hv
    refine ⟨h1, h2, h0, ?_⟩
    rw [conVal_update c col nb nPar y _ h1 h2 h3] at hv ⊢
    have h4 : s.stride ∣ c.at col * (w - v) := Dvd.dvd.mul_left hd _
    have := Int.dvd_add hv h4
    have e : Stride.conVal c col nb nPar (Function.update y col 0) + c.at col * v +
        c.at col * (w - v) = Stride.conVal c col nb nPar (Function.update y col 0) + c.at col * w := by
      ring
    rwa [e] at this

/-- The stride of a loop, at the columns of a domain. -/
theorem strideOk_pt (D : Dom) (s : Stride) (i nPar : Nat) (x p : Nat → Int) (y : Point)
    (hi : i < D.nIter) (hy : ∀ k, k ≤ i → y k = x k)
    (hp : ∀ q, y (D.nIter + D.divs.length + q) = p q) :
    s.holds i (D.nIter + D.divs.length) nPar y ↔ strideOk (some s) i nPar x p := by
  unfold strideOk
  simp only
  apply Stride.holds_congr
  · intro k hk
    rw [if_pos (by omega)]
    exact hy k hk
  · intro q _
    rw [if_neg (by omega), hp]
    congr 1
    omega

/-! ## The assumptions about a domain that its guard needs -/

/-- Assumptions about the domain of a loop at level `L`, where the iterators in `ok` are available in
the generated program and `K` is what the enclosing loops guarantee about the iterators. -/
structure GuardOK (cx : Ctx) (p : Nat → Int) (L : Nat) (ok : Nat → Bool) (eqs : List (Nat × Row))
    (strides : Nat → Option Stride) (K : (Nat → Int) → Prop) (D : Dom) : Prop where
  /-- all rows have all columns -/
  len : ∀ r ∈ D.rows, r.coef.length = D.total cx.nm
  /-- rows without variables are true (isl removes them or makes the set empty) -/
  const : ∀ r ∈ D.rows, (∀ c, r.at c = 0) → if r.isEq then r.cst = 0 else 0 ≤ r.cst
  /-- definitions of existentials are printed faithfully -/
  faithful : D.divsFaithful cx.nm
  /-- the rows that do not involve the scanned iterator use available columns only -/
  use : ∀ r ∈ D.rows, Row.involvesOpt r (guardCol D L) = false → ∀ c, r.at c ≠ 0 →
    D.usable ok c = true
  /-- no pair of inequalities defines an existential: see `C13_negative_operand` -/
  noPair : ∀ k, k < D.divs.length → findPair D cx.nm.nPar (D.nIter + k) D.rows = none
  /-- no modulo condition is found unsatisfiable: see `C14_extra_guard_ignored` -/
  noUnsat : ∀ rows' outs, extraModGuards cx D L eqs strides L D.divs.length D.rows =
    some (rows', outs) → ModOut.unsat ∉ outs
  /-- an equality involves at most one existential: the modulo guard would call another one by the
  name of an iterator -/
  oneDiv : ∀ r ∈ D.rows, r.isEq = true → Row.involvesOpt r (guardCol D L) = false →
    ∀ k, k < D.divs.length → r.at (D.nIter + k) ≠ 0 →
    ∀ j, j < D.divs.length → j ≠ k → r.at (D.nIter + j) = 0
  /-- and it determines that existential: its definition is the solution if there is one -/
  determined : ∀ r ∈ D.rows, r.isEq = true → Row.involvesOpt r (guardCol D L) = false →
    ∀ k, k < D.divs.length → r.at (D.nIter + k) ≠ 0 → ∀ x, K x →
    (∃ v, r.holds (Function.update (D.pt x p) (D.nIter + k) v)) → r.holds (D.pt x p)

/-- What is known about the environment and the iterators at level `L`. -/
structure Known (cx : Ctx) (p : Nat → Int) (L : Nat) (ok : Nat → Bool)
    (strides : Nat → Option Stride) (env : Env) (x : Nat → Int) : Prop where
  env : EnvOK cx.nm ok env x p
  okL : ∀ c, ok c = true → c < L - 1
  stride : ∀ i s, i < L - 1 → strides i = some s →
    strideOk (some s) i cx.nm.nPar x p ∧ s.uses i ok

theorem findPair_tail (D : Dom) (nPar col : Nat) (r : Row) (rs : List Row)
    (h : findPair D nPar col (r :: rs) = none) : findPair D nPar col rs = none := by
  unfold findPair at h
  split at h
  · split at h
    · split at h <;> cases h
    · exact h
  · exact h

theorem findPair_sublist (D : Dom) (nPar col : Nat) {rows rows' : List Row}
    (hs : rows'.Sublist rows) (h : findPair D nPar col rows = none) :
    findPair D nPar col rows' = none := by
  induction hs with
  | slnil => exact h
  | cons a _ ih => exact ih (findPair_tail D nPar col _ _ h)
  | cons_cons a hs ih =>
    have ht := ih (findPair_tail D nPar col _ _ h)
    unfold findPair at h ⊢
    split
    · rename_i hc
      rw [if_pos hc] at h
      split at h
      · split at h <;> cases h
      · rename_i hf
        rw [List.find?_eq_none] at hf
        split
        · rename_i s hs'
          exact absurd (List.find?_some hs') (by
            have := hf s (hs.mem (List.mem_of_find?_eq_some hs'))
            simpa using this)
        · exact ht
    · exact ht

theorem definingEquality_spec (D : Dom) (rows : List Row) (col : Nat) (u : Row)
    (h : D.definingEquality rows col = some u) :
    u ∈ rows ∧ u.isEq = true ∧ u.at col ≠ 0 ∧
      ∀ c, c < D.nIter + D.divs.length → col < c → u.at c = 0 := by
  unfold Dom.definingEquality at h
  have h1 := List.mem_of_find?_eq_some h
  have h2 := List.find?_some h
  simp only [Bool.and_eq_true, bne_iff_ne, ne_eq, List.all_eq_true, List.mem_range, Bool.or_eq_true,
    decide_eq_true_eq, beq_iff_eq] at h2
  refine ⟨h1, h2.1.1, h2.1.2, ?_⟩
  intro c hc hlt
  rcases h2.2 c hc with h | h
  · omega
  · exact h

theorem mem_dropRow (rows : List Row) (u r : Row) :
    r ∈ dropRow rows u ↔ r ∈ rows ∧ ¬ (r.coef = u.coef ∧ r.cst = u.cst) := by
  unfold dropRow
  simp only [List.mem_filter]
  refine and_congr_right (fun _ => ?_)
  by_cases h1 : r.coef = u.coef <;> by_cases h2 : r.cst = u.cst <;> simp [h1, h2]

/-- A modulo guard for an equality on an existential column tests exactly the equality. -/
theorem modGuard_div (cx : Ctx) (p : Nat → Int) (L : Nat) (ok : Nat → Bool) (eqs : List (Nat × Row))
    (strides : Nat → Option Stride) (K : (Nat → Int) → Prop) (D : Dom) (env : Env) (x : Nat → Int)
    (hG : GuardOK cx p L ok eqs strides K D) (hK : K x)
    (hN : Known cx p L ok strides env x)
    (hit : L = D.nIter ∨ L = D.nIter + 1 ∨ L = 0)
    (hst : ∀ s, 0 < L → strides (L - 1) = some s → L = D.nIter ∧ s.wf (L - 1) cx.nm.nPar ∧ s.uses (L - 1) ok)
    (u : Row) (hu : u ∈ D.rows) (k : Nat) (hk : k < D.divs.length) (hq : u.isEq = true)
    (hnz : u.at (D.nIter + k) ≠ 0) (hinv : Row.involvesOpt u (guardCol D L) = false)
    (o : ModOut) (ho : modGuard cx D eqs strides L u none (D.nIter + k) = some o) :
    Allows env o ↔ u.holds (D.pt x p) := by
  have hsolv : (∃ v, u.holds (Function.update (D.pt x p) (D.nIter + k) v)) ↔ u.holds (D.pt x p) :=
    ⟨hG.determined u hu hq hinv k hk hnz x hK, fun h => ⟨D.pt x p (D.nIter + k), by
      rw [Function.update_eq_self]; exact h⟩⟩
  unfold modGuard at ho
  dsimp only at ho
  by_cases hv : u.at (D.nIter + k) = 1 ∨ u.at (D.nIter + k) = -1
  · rw [if_pos hv] at ho
    injection ho with ho
    subst ho
    simp only [Allows, true_iff]
    rw [← hsolv, solvable_iff u _ _ hq, cabs_eq, abs_dvd]
    rcases hv with h | h
    · rw [h]; exact one_dvd _
    · rw [h]; exact ⟨-_, by ring⟩
  · rw [if_neg hv, if_neg (by simp), if_neg (by omega)] at ho
    simp only [Option.isSome_none] at ho
    -- the point: the scanned iterator gets a value allowed by its own stride
    obtain ⟨y, hy1, hy2, hy3⟩ : ∃ y : Point, (∀ c, ¬ (0 < L ∧ c = L - 1 ∧ L = D.nIter) → y c = D.pt x p c) ∧
        (∀ s, 0 < L → L = D.nIter → strides (L - 1) = some s →
          s.holds (L - 1) (D.nIter + D.divs.length) cx.nm.nPar y) ∧ True := by
      by_cases hc : 0 < L ∧ L = D.nIter
      · cases hs : strides (L - 1) with
        | none => exact ⟨D.pt x p, fun _ _ => rfl, fun s _ _ h => by simp at h, trivial⟩
        | some s =>
          obtain ⟨v, hv⟩ := s.exists_holds (L - 1) (D.nIter + D.divs.length) cx.nm.nPar (D.pt x p)
            (hst s hc.1 hs).2.1 (by omega)
          refine ⟨Function.update (D.pt x p) (L - 1) v, ?_, ?_, trivial⟩
          · intro c hc'
            rw [Function.update_of_ne]
            intro he
            exact hc' ⟨hc.1, he, hc.2⟩
          · intro s' _ _ hs'
            injection hs' with hs'
            subst hs'
            exact hv
      · exact ⟨D.pt x p, fun _ _ => rfl, fun s h1 h2 _ => absurd ⟨h1, h2⟩ hc, trivial⟩
    have hlen := hG.len u hu
    have hnb : u.coef.length - cx.nm.nPar = D.nIter + D.divs.length := by
      rw [hlen]; unfold Dom.total; omega
    -- columns of the row
    have hcols : ∀ i, i ≠ D.nIter + k → u.at i ≠ 0 →
        (i < D.nIter ∧ ok i = true) ∨ D.nIter + D.divs.length ≤ i := by
      intro i hi hz
      by_cases h1 : i < D.nIter
      · have := hG.use u hu hinv i hz
        unfold Dom.usable at this
        rw [if_pos h1] at this
        exact .inl ⟨h1, this⟩
      · by_cases h2 : i < D.nIter + D.divs.length
        · exfalso
          apply hz
          have := hG.oneDiv u hu hq hinv k hk hnz (i - D.nIter) (by omega) (by omega)
          rwa [show D.nIter + (i - D.nIter) = i by omega] at this
        · exact .inr (by omega)
    have hyx : ∀ i, i < D.nIter → i < L - 1 → y i = x i := by
      intro i hi hL
      rw [hy1 i (by omega)]
      unfold Dom.pt
      rw [if_pos hi]
    have hyp : ∀ q, y (D.nIter + D.divs.length + q) = p q := by
      intro q
      rw [hy1 _ (by omega)]
      unfold Dom.pt
      rw [if_neg (by omega), if_neg (by omega)]
      congr 1
      omega
    have hctx : ModCtx cx.nm strides L u (D.nIter + k) env y
        (fun i => (i < D.nIter ∧ ok i = true) ∨ D.nIter + D.divs.length ≤ i) := by
      refine ⟨by rw [hlen]; unfold Dom.total; omega, by omega, hnz, ?_, ?_, hcols, ?_, ?_⟩
      · intro i hi hP
        rw [hnb]
        unfold modName
        rcases hP with ⟨h1, h2⟩ | h1
        · rw [if_pos (by omega), hN.env.it i h2, hyx i h1 (hN.okL i h2)]
        · rw [if_neg (by omega), hN.env.par _ (by rw [hlen] at hi; unfold Dom.total at hi; omega)]
          have := hyp (i - (D.nIter + D.divs.length))
          rw [show D.nIter + D.divs.length + (i - (D.nIter + D.divs.length)) = i by omega] at this
          exact this.symm
      · intro i hi
        exact .inr (by omega)
      · intro i hi1 hi2 s hs
        rw [hnb]
        by_cases hiL : i < L - 1
        · rw [strideOk_pt D s i cx.nm.nPar x p y (by omega)
            (fun k hk => hyx k (by omega) (by omega)) hyp]
          exact (hN.stride i s hiL hs).1
        · have hiL' : i = L - 1 := by omega
          subst hiL'
          exact hy2 s (by omega) (hst s (by omega) hs).1 hs
      · intro j hj1 hj2 s r hs hr i hi hz
        left
        by_cases hjL : j < L - 1
        · exact ⟨by omega, (hN.stride j s hjL hs).2 r hr i hi hz⟩
        · have hjL' : j = L - 1 := by omega
          subst hjL'
          have := hst s (by omega) hs
          exact ⟨by omega, this.2.2 r hr i hi hz⟩
    obtain ⟨o', ho', hall⟩ := C12_modulo_equality cx.nm strides L 0 u (D.nIter + k) env y _ hctx hq
    rw [ho] at ho'
    injection ho' with ho'
    subst ho'
    rw [hall, ← hsolv]
    refine exists_congr (fun v => ?_)
    apply Row.holds_congr
    intro c hc
    by_cases hck : c = D.nIter + k
    · subst hck; simp
    · rw [Function.update_of_ne hck, Function.update_of_ne hck]
      apply hy1
      rintro ⟨h1, h2, h3⟩
      rcases hcols c hck hc with ⟨_, h⟩ | h
      · have := hN.okL c h
        omega
      · omega

theorem extraModGuards_spec (cx : Ctx) (p : Nat → Int) (L : Nat) (ok : Nat → Bool)
    (eqs : List (Nat × Row))
    (strides : Nat → Option Stride) (K : (Nat → Int) → Prop) (D : Dom) (env : Env) (x : Nat → Int)
    (hG : GuardOK cx p L ok eqs strides K D) (hK : K x)
    (hN : Known cx p L ok strides env x)
    (hit : L = D.nIter ∨ L = D.nIter + 1 ∨ L = 0)
    (hst : ∀ s, 0 < L → strides (L - 1) = some s → L = D.nIter ∧ s.wf (L - 1) cx.nm.nPar ∧ s.uses (L - 1) ok) :
    ∀ (k : Nat) (rows rows' : List Row) (outs : List ModOut), k ≤ D.divs.length →
    rows.Sublist D.rows →
    extraModGuards cx D L eqs strides L k rows = some (rows', outs) → ModOut.unsat ∉ outs →
    rows'.Sublist rows ∧
    (((∀ q, ModOut.test q ∈ outs → q.holds env) ∧
      (∀ r ∈ rows', Row.involvesOpt r (guardCol D L) = false → r.holds (D.pt x p))) ↔
      ∀ r ∈ rows, Row.involvesOpt r (guardCol D L) = false → r.holds (D.pt x p))
  | 0, rows, rows', outs, _, _, h, _ => by
    simp only [extraModGuards, Option.some.injEq, Prod.mk.injEq] at h
    obtain ⟨rfl, rfl⟩ := h
    exact ⟨List.Sublist.refl _, by simp⟩
  | k + 1, rows, rows', outs, hk, hsub, h, hun => by
    have ih := extraModGuards_spec cx p L ok eqs strides K D env x hG hK hN hit hst k
    unfold extraModGuards at h
    dsimp only at h
    cases hd : D.definingEquality rows (D.nIter + k) with
    | none =>
      rw [hd] at h
      simp only at h
      have hnp : D.definingInequalities cx.nm.nPar rows (D.nIter + k) = none := by
        unfold Dom.definingInequalities
        rw [findPair_sublist D _ _ hsub (hG.noPair k (by omega))]
      rw [hnp] at h
      exact ih rows rows' outs (by omega) hsub h hun
    | some u =>
      rw [hd] at h
      simp only at h
      obtain ⟨hu1, hu2, hu3, hu4⟩ := definingEquality_spec D rows _ u hd
      by_cases hinv : Row.involvesOpt u (guardCol D L) = true
      · rw [if_pos hinv] at h
        exact ih rows rows' outs (by omega) hsub h hun
      · rw [if_neg hinv] at h
        have hinv : Row.involvesOpt u (guardCol D L) = false := by simpa using hinv
        cases hm : modGuard cx D eqs strides L u none (D.nIter + k) with
        | none => rw [hm] at h; simp at h
        | some o =>
          cases he : extraModGuards cx D L eqs strides L k (dropRow rows u) with
          | none => rw [hm, he] at h; simp at h
          | some ro =>
            obtain ⟨rows1, outs1⟩ := ro
            rw [hm, he] at h
            simp only [Option.bind_eq_bind, Option.bind_some, Option.some.injEq,
              Prod.mk.injEq] at h
            obtain ⟨rfl, rfl⟩ := h
            have hsub' : (dropRow rows u).Sublist rows := List.filter_sublist
            obtain ⟨i1, i2⟩ := ih (dropRow rows u) rows1 outs1 (by omega) (hsub'.trans hsub) he
              (fun hmem => hun (by simp [hmem]))
            refine ⟨i1.trans hsub', ?_⟩
            have hallow := modGuard_div cx p L ok eqs strides K D env x hG hK hN hit hst u
              (hsub.mem hu1) k (by omega) hu2 hu3 hinv o hm
            have htest : (∀ q, ModOut.test q ∈ o :: outs1 → q.holds env) ↔
                (Allows env o ∧ ∀ q, ModOut.test q ∈ outs1 → q.holds env) := by
              cases o with
              | ok => simp [Allows]
              | unsat => exact absurd (by simp) hun
              | test q => simp [Allows]
            rw [htest, and_assoc, i2, hallow]
            constructor
            · rintro ⟨h1, h2⟩ r hr hri
              by_cases hru : r.coef = u.coef ∧ r.cst = u.cst
              · unfold Row.holds at h1 ⊢
                rw [hu2, if_pos rfl] at h1
                have : r.val (D.pt x p) = u.val (D.pt x p) := by
                  unfold Row.val; rw [hru.1, hru.2]
                rw [this, h1]
                split <;> simp
              · exact h2 r ((mem_dropRow _ _ _).mpr ⟨hr, hru⟩) hri
            · intro h1
              exact ⟨h1 u hu1 hinv, fun r hr hri => h1 r ((mem_dropRow _ _ _).mp hr).1 hri⟩

/-- The guard of a loop executes its contents exactly when all rows that do not involve the scanned
iterator hold. -/
theorem insertGuard_exec (cx : Ctx) (hsort : ∀ l, (cx.sort l).Perm l)
    (hgsort : ∀ l, (cx.gsort l).Perm l) (p : Nat → Int) (L : Nat) (ok : Nat → Bool)
    (eqs : List (Nat × Row))
    (strides : Nat → Option Stride) (K : (Nat → Int) → Prop) (D : Dom) (env : Env) (x : Nat → Int)
    (hG : GuardOK cx p L ok eqs strides K D) (hK : K x)
    (hN : Known cx p L ok strides env x)
    (hit : L = D.nIter ∨ L = D.nIter + 1 ∨ L = 0)
    (hst : ∀ s, 0 < L → strides (L - 1) = some s → L = D.nIter ∧ s.wf (L - 1) cx.nm.nPar ∧ s.uses (L - 1) ok)
    (g : List Stmt → List Stmt) (hg : insertGuard cx D L eqs strides L = some g)
    (body : List Stmt) (tr : List Event) (env' : Env) :
    Exec (g body) env tr env' ↔
      ((∀ r ∈ D.rows, Row.involvesOpt r (guardCol D L) = false → r.holds (D.pt x p)) ∧
        Exec body env tr env') ∨
      (¬ (∀ r ∈ D.rows, Row.involvesOpt r (guardCol D L) = false → r.holds (D.pt x p)) ∧
        tr = [] ∧ env' = env) := by
  unfold insertGuard at hg
  cases he : extraModGuards cx D L eqs strides L D.divs.length D.rows with
  | none => rw [he] at hg; simp at hg
  | some ro =>
    obtain ⟨copy, outs⟩ := ro
    rw [he] at hg
    simp only [Option.bind_eq_bind, Option.bind_some, Option.some.injEq] at hg
    subst hg
    have hun := hG.noUnsat copy outs he
    obtain ⟨hsub, hiff⟩ := extraModGuards_spec cx p L ok eqs strides K D env x hG hK hN hit hst
      D.divs.length D.rows copy outs (Nat.le_refl _) (List.Sublist.refl _) he hun
    have hguard := C11_guard_exact cx hsort D L copy env (D.pt x p)
      (fun r hr => by rw [hG.len r (hsub.mem hr)])
      (fun r hr hz => by
        have := hG.const r (hsub.mem hr) hz
        have hv : r.val (D.pt x p) = r.cst := by
          unfold Row.val
          rw [dotFrom_eq_sum, Finset.sum_eq_zero (fun k _ => by
            have := hz k
            simp only [Row.at] at this
            rw [this]; simp)]
          simp
        unfold Row.holds
        rw [hv]
        exact this)
      (fun r hr hinv c hc => D.vars_eval cx.nm ok env x p hN.env hG.faithful c
        (by have := Row.at_lt r c hc; rwa [hG.len r (hsub.mem hr)] at this)
        (hG.use r (hsub.mem hr) hinv c hc))
    rw [← hiff, ← hguard, exec_wraps]
    by_cases ht : ∀ q, ModOut.test q ∈ outs → q.holds env
    · have ht' := iff_true_intro ht
      rw [ht']
      simp only [true_and, not_true, false_and, or_false]
      split
      · rename_i hge
        rw [List.isEmpty_iff] at hge
        rw [hge]
        simp
      · rw [exec_guard]
        have : (∀ q ∈ cx.gsort (guardEqns cx D L copy), q.holds env) ↔
            ∀ q ∈ guardEqns cx D L copy, q.holds env :=
          ⟨fun h q hq => h q ((hgsort _).mem_iff.mpr hq), fun h q hq => h q ((hgsort _).mem_iff.mp hq)⟩
        rw [this]
    · have ht' := iff_false_intro ht
      rw [ht']
      simp only [false_and, false_or, not_false_eq_true, true_and]

end Verif.ClastGen
