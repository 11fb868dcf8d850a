import Verif.Model.MatrixConv
import Mathlib.Tactic.Linarith

/-! # C73: domains and scatterings made from matrices and bounds -/

namespace Verif.Props.MatrixConv
open Verif.MatrixConv

/-! ## Specification -/

/-- The sum of products. -/
def dot : List Int → List Int → Int
  | a :: as, b :: bs => a * b + dot as bs
  | _, _ => 0

/-- What a row of a matrix says about the values of its columns (section "Domain Representation" of the manual): the
    first entry is 0 for an equality, else the row is an inequality; the last entry is the constant. -/
def RowHolds (row : List Int) (vals : List Int) : Prop :=
  (row.headD 0 = 0 → dot row.tail (vals ++ [1]) = 0) ∧ (row.headD 0 ≠ 0 → 0 ≤ dot row.tail (vals ++ [1]))

/-- The meaning of a constraint. -/
def Holds (c : Row) (i x p : List Int) : Prop :=
  if c.eq then dot c.inn i + dot c.out x + dot c.par p + c.cst = 0
  else 0 ≤ dot c.inn i + dot c.out x + dot c.par p + c.cst

/-- The pair `(i, x)` is in the relation, for the parameters `p`. -/
def Mem (r : Rel) (i x p : List Int) : Prop := ∀ c ∈ r.rows, Holds c i x p

/-! ## Proofs -/

theorem dot_append : ∀ (a x b y : List Int), a.length = x.length → dot (a ++ b) (x ++ y) = dot a x + dot b y
  | [], [], b, y, _ => by simp [dot]
  | a :: as, x :: xs, b, y, h => by
    simp only [List.cons_append, dot]
    rw [dot_append as xs b y (by simpa using h)]
    omega
  | [], _ :: _, _, _, h => by simp at h
  | _ :: _, [], _, _, h => by simp at h

theorem dot_zero : ∀ (n : Nat) (x : List Int), dot (List.replicate n 0) x = 0
  | 0, _ => by simp [dot]
  | n + 1, [] => by simp [List.replicate, dot]
  | n + 1, x :: xs => by simp [List.replicate, dot, dot_zero n xs]

theorem mapM_get (row : List Int) : ∀ (n k : Nat), k + n ≤ row.length →
    (List.range' 0 n).mapM (fun j => row[k + j]?) = some ((row.drop k).take n) := by
  suffices h : ∀ (n k s : Nat), k + s + n ≤ row.length →
      (List.range' s n).mapM (fun j => row[k + j]?) = some ((row.drop (k + s)).take n) from fun n k hk => h n k 0 hk
  intro n
  induction n with
  | zero => intro k s _; simp
  | succ n ih =>
    intro k s h
    have hlt : k + s < row.length := by omega
    have e : (row.drop (k + s)).take (n + 1) = row[k + s] :: (row.drop (k + (s + 1))).take n := by
      rw [List.drop_eq_getElem_cons hlt, List.take_succ_cons]
      rfl
    rw [List.range'_succ, List.mapM_cons, List.getElem?_eq_getElem hlt, ih k (s + 1) (by omega), e]
    rfl

/-- What is read from a row that is long enough. -/
theorem constraintFromRow_eq (sp : Space) (t : Int) (row : List Int) (h : sp.out + sp.par < row.length) :
    constraintFromRow sp (t :: row) = some ⟨decide (t = 0), List.replicate sp.inn 0, row.take sp.out,
      (row.drop sp.out).take sp.par, row[sp.out + sp.par]⟩ := by
  unfold constraintFromRow
  have h1 : (List.range sp.out).mapM (fun j => (t :: row)[1 + j]?) = some (row.take sp.out) := by
    rw [List.range_eq_range', mapM_get (t :: row) sp.out 1 (by simp; omega)]
    simp
  have h2 : (List.range sp.par).mapM (fun j => (t :: row)[1 + sp.out + j]?) = some ((row.drop sp.out).take sp.par) := by
    rw [List.range_eq_range', mapM_get (t :: row) sp.par (1 + sp.out) (by simp; omega), Nat.add_comm 1,
      List.drop_succ_cons]
  have h3 : (t :: row)[1 + sp.out + sp.par]? = some row[sp.out + sp.par] := by
    rw [show 1 + sp.out + sp.par = sp.out + sp.par + 1 by omega, List.getElem?_cons_succ, List.getElem?_eq_getElem h]
  rw [h1, h2, h3]
  rfl

theorem row_split (row : List Int) (n m : Nat) (h : row.length = n + m + 1) :
    row = row.take n ++ ((row.drop n).take m ++ [row[n + m]]) := by
  have h1 : (row.drop n).drop m = [row[n + m]] := by
    rw [List.drop_drop, List.drop_eq_getElem_cons (by omega), List.drop_eq_nil_of_le (by omega)]
  rw [← h1, List.take_append_drop, List.take_append_drop]

theorem row_mem (t : Int) (row x p : List Int) (h : row.length = x.length + p.length + 1) (i : List Int) (k : Nat) :
    Holds ⟨decide (t = 0), List.replicate k 0, row.take x.length, (row.drop x.length).take p.length,
      row[x.length + p.length]⟩ i x p ↔ RowHolds (t :: row) (x ++ p) := by
  have e : dot row (x ++ p ++ [1]) = dot (row.take x.length) x + dot ((row.drop x.length).take p.length) p +
      row[x.length + p.length] := by
    conv_lhs => rw [row_split row x.length p.length h]
    rw [List.append_assoc, dot_append _ _ _ _ (by simp; omega), dot_append _ _ _ _ (by simp; omega)]
    simp [dot]
    omega
  unfold Holds RowHolds
  simp only [dot_zero, List.headD_cons, List.tail_cons, e, Int.zero_add]
  by_cases ht : t = 0 <;> simp [ht]

theorem mapM_rows {f : List Int → Option Row} : ∀ (m : List (List Int)), (∀ r ∈ m, ∃ c, f r = some c) →
    ∃ rs, m.mapM f = some rs ∧ (∀ c ∈ rs, ∃ r ∈ m, f r = some c) ∧ ∀ r ∈ m, ∃ c ∈ rs, f r = some c
  | [], _ => ⟨[], by simp, by simp, by simp⟩
  | r :: m, h => by
    obtain ⟨c, hc⟩ := h r (by simp)
    obtain ⟨rs, h1, h2, h3⟩ := mapM_rows m (fun a ha => h a (by simp [ha]))
    refine ⟨c :: rs, by rw [List.mapM_cons, hc, h1]; rfl, ?_, ?_⟩
    · intro d hd
      rcases List.mem_cons.1 hd with rfl | hd
      · exact ⟨r, by simp, hc⟩
      · obtain ⟨a, ha, e⟩ := h2 d hd
        exact ⟨a, by simp [ha], e⟩
    · intro a ha
      rcases List.mem_cons.1 ha with rfl | ha
      · exact ⟨c, by simp, hc⟩
      · obtain ⟨d, hd, e⟩ := h3 a ha
        exact ⟨d, by simp [hd], e⟩

/-- **C73, domains.**  The domain made from a matrix has the points that satisfy all rows; no row is read beyond its
    end. -/
theorem C73_domain (m : List (List Int)) (n np : Nat) (hm : ∀ r ∈ m, r.length = 2 + n + np) :
    ∃ d, domainFromMatrix (2 + n + np) m np = some d ∧ d.space = ⟨np, 0, n⟩ ∧
      ∀ x p : List Int, x.length = n → p.length = np → (Mem d [] x p ↔ ∀ r ∈ m, RowHolds r (x ++ p)) := by
  have he : 2 + n + np - 2 - np = n := by omega
  have hrow : ∀ r ∈ m, ∃ t row, r = t :: row ∧ row.length = n + np + 1 := by
    intro r hr
    have hl := hm r hr
    cases r with
    | nil => simp only [List.length_nil] at hl; omega
    | cons t row =>
      simp only [List.length_cons] at hl
      exact ⟨t, row, rfl, by omega⟩
  obtain ⟨rs, h1, h2, h3⟩ := mapM_rows (f := constraintFromRow ⟨np, 0, n⟩) m (fun r hr => by
    obtain ⟨t, row, rfl, hl⟩ := hrow r hr
    exact ⟨_, constraintFromRow_eq ⟨np, 0, n⟩ t row (by dsimp only; omega)⟩)
  refine ⟨⟨⟨np, 0, n⟩, rs⟩, ?_, rfl, ?_⟩
  · unfold domainFromMatrix basicSetFromMatrix
    rw [if_neg (by omega), he, h1]
    rfl
  · intro x p hx hp
    have key : ∀ r ∈ m, ∀ c, constraintFromRow ⟨np, 0, n⟩ r = some c → (Holds c [] x p ↔ RowHolds r (x ++ p)) := by
      intro r hr c hc
      obtain ⟨t, row, rfl, hl⟩ := hrow r hr
      subst hx hp
      rw [constraintFromRow_eq _ t row (by dsimp only; omega)] at hc
      obtain rfl := Option.some.inj hc
      exact row_mem t row x p hl [] 0
    constructor
    · intro h r hr
      obtain ⟨c, hc, e⟩ := h3 r hr
      exact (key r hr c e).1 (h c hc)
    · intro h c hc
      obtain ⟨r, hr, e⟩ := h2 c hc
      exact (key r hr c e).2 (h r hr)

/-- `i >= 1`, `i <= N`, `2 j = i`. -/
example : ∃ d, domainFromMatrix 5 [[1, 1, 0, 0, -1], [1, -1, 0, 1, 0], [0, -1, 2, 0, 0]] 1 = some d ∧
    Mem d [] [4, 2] [7] ∧ ¬ Mem d [] [5, 2] [7] ∧ ¬ Mem d [] [8, 4] [7] := by
  obtain ⟨d, h, _, hd⟩ := C73_domain [[1, 1, 0, 0, -1], [1, -1, 0, 1, 0], [0, -1, 2, 0, 0]] 2 1 (by decide)
  refine ⟨d, h, ?_, ?_, ?_⟩ <;> rw [hd _ _ rfl rfl] <;> simp [RowHolds, dot]

/-- **C73, scatterings: the dates are never constrained.**  In the relation made from a matrix every date goes with the
    same instances as every other date, whatever the matrix. -/
theorem C73_scattering_ignored (ncols : Nat) (m : List (List Int)) (ns np : Nat) (r : Rel)
    (h : scatteringFromMatrix ncols m ns np = some r) (x c c' p : List Int) : Mem r x c p ↔ Mem r x c' p := by
  unfold scatteringFromMatrix basicMapFromMatrix at h
  rw [Option.map_eq_some_iff] at h
  obtain ⟨b, hb, rfl⟩ := h
  obtain ⟨_, hb⟩ := Option.ite_none_left_eq_some.1 hb
  rw [Option.map_eq_some_iff] at hb
  obtain ⟨rs, hrs, rfl⟩ := hb
  have hz : ∀ (m : List (List Int)) (rs : List Row), m.mapM (constraintFromRow ⟨np, ns, ncols - 2 - np - ns⟩) = some rs →
      ∀ d ∈ rs, d.inn = List.replicate ns 0 := by
    intro m
    induction m with
    | nil =>
      intro rs h
      simp only [List.mapM_nil] at h
      obtain rfl := Option.some.inj h
      simp
    | cons a m ih =>
      intro rs h d hd
      rw [List.mapM_cons, Option.bind_eq_bind, Option.bind_eq_some_iff] at h
      obtain ⟨b, hb, h⟩ := h
      rw [Option.bind_eq_bind, Option.bind_eq_some_iff] at h
      obtain ⟨bs, hbs, h⟩ := h
      obtain rfl := Option.some.inj h
      rcases List.mem_cons.1 hd with rfl | hd
      · unfold constraintFromRow at hb
        split at hb
        · obtain rfl := Option.some.inj hb
          rfl
        · exact absurd hb (by simp)
      · exact ih bs hbs d hd
  have key : ∀ (c : List Int) (d : Row), d ∈ rs → (Holds ⟨d.eq, d.out, d.inn, d.par, d.cst⟩ x c p ↔
      Holds ⟨d.eq, d.out, [], d.par, d.cst⟩ x [] p) := by
    intro c d hd
    unfold Holds
    dsimp only
    rw [hz m rs hrs d hd, dot_zero]
    simp [dot]
  unfold Mem
  simp only [reverse, List.forall_mem_map]
  exact forall_congr' (fun d => forall_congr' (fun hd => (key c d hd).trans (key c' d hd).symm))

/-- The matrix of the scattering `c1 = i` for one iterator and no parameter: `1*c1 - 1*i + 0 = 0`. -/
def exS : List (List Int) := [[0, 1, -1, 0]]

/-- **C73, false for scatterings.**  The matrix says that the instance 3 is executed at the date 3 and the instance 1 only
    at the date 1.  The relation made from it has no date for the instance 3, and every date for the instance 1. -/
theorem C73_scattering_wrong : ∃ r, scatteringFromMatrix 4 exS 1 0 = some r ∧
    (∀ c i : Int, (∀ row ∈ exS, RowHolds row [c, i]) ↔ c = i) ∧
    (∀ c : Int, ¬ Mem r [3] [c] []) ∧ ∀ c : Int, Mem r [1] [c] [] := by
  refine ⟨⟨⟨0, 1, 1⟩, [⟨true, [1], [0], [], -1⟩]⟩, by decide, ?_, ?_, ?_⟩
  · intro c i
    simp [exS, RowHolds, dot]
    omega
  · intro c
    simp [Mem, Holds, dot]
  · intro c
    simp [Mem, Holds, dot]

/-- **C73, scatterings without dimensions.**  Full statement: the relation made from a matrix has the pairs of dates and
    instances that satisfy all rows.  It is false as soon as there is a dimension that the matrix restricts
    (`C73_scattering_ignored`); without dimensions the rows are read as for domains. -/
theorem C73_scattering_partial (m : List (List Int)) (n np : Nat) (hm : ∀ r ∈ m, r.length = 2 + n + np) :
    ∃ r, scatteringFromMatrix (2 + n + np) m 0 np = some r ∧
      ∀ x p : List Int, x.length = n → p.length = np → (Mem r x [] p ↔ ∀ row ∈ m, RowHolds row (x ++ p)) := by
  obtain ⟨d, hd, _, h⟩ := C73_domain m n np hm
  have hb : basicMapFromMatrix (2 + n + np) m np 0 = basicSetFromMatrix (2 + n + np) m np := by
    unfold basicMapFromMatrix basicSetFromMatrix
    simp
  refine ⟨reverse d, ?_, ?_⟩
  · unfold scatteringFromMatrix
    rw [hb]
    unfold domainFromMatrix at hd
    rw [hd]
    rfl
  · intro x p hx hp
    rw [← h x p hx hp]
    unfold Mem
    simp only [reverse, List.forall_mem_map]
    refine forall_congr' (fun c => forall_congr' (fun _ => ?_))
    have e : ∀ a : List Int, dot a [] = 0 := fun a => by cases a <;> rfl
    unfold Holds
    dsimp only
    simp only [e, Int.add_zero, Int.zero_add]

example : ∃ r, scatteringFromMatrix 3 [[1, 1, -2]] 0 0 = some r ∧ Mem r [2] [] [] ∧ ¬ Mem r [1] [] [] := by
  obtain ⟨r, h, hr⟩ := C73_scattering_partial [[1, 1, -2]] 1 0 (by decide)
  refine ⟨r, h, ?_, ?_⟩ <;> rw [hr _ _ rfl rfl] <;> simp [RowHolds, dot]

theorem dot_unit (s : Int) (i : Nat) : ∀ (n k : Nat) (x : List Int), x.length = n →
    dot ((List.range' k n).map (fun j => if j = i then s else 0)) x = if k ≤ i ∧ i < k + n then s * x.getD (i - k) 0 else 0
  | 0, k, x, _ => by
    rw [if_neg (by omega)]
    simp [dot]
  | n + 1, k, x, h => by
    cases x with
    | nil => simp at h
    | cons a x =>
      rw [List.range'_succ, List.map_cons, dot, dot_unit s i n (k + 1) x (by simpa using h)]
      by_cases h1 : k = i
      · subst h1
        rw [if_pos rfl, if_neg (by omega), if_pos (by omega)]
        simp
      · rw [if_neg h1]
        by_cases h2 : k + 1 ≤ i ∧ i < k + 1 + n
        · rw [if_pos h2, if_pos (by omega), show i - k = (i - (k + 1)) + 1 by omega]
          simp
        · rw [if_neg h2, if_neg (by omega)]
          simp

theorem bounds_mem {n i : Nat} (hi : i < n) (lo hi' : Int) (x : List Int) (hx : x.length = n) :
    (∀ c ∈ boundRows n i lo hi', Holds c [] x []) ↔ lo ≤ x.getD i 0 ∧ x.getD i 0 ≤ hi' := by
  unfold boundRows
  simp only [List.mem_cons, List.not_mem_nil, or_false, forall_eq_or_imp, forall_eq, Holds, Bool.false_eq_true, if_false,
    List.range_eq_range', dot_unit _ _ n 0 x hx, dot]
  rw [if_pos (by omega), if_pos (by omega)]
  simp only [Nat.sub_zero]
  omega

/-- **C73, bounds.**  `cloog_domain_from_bounds` gives the points that are between the bounds in each dimension. -/
theorem C73_bounds (lo hi : List Int) (h : lo.length = hi.length) : ∃ d, domainFromBounds lo hi = some d ∧
    d.space = ⟨0, 0, lo.length⟩ ∧ ∀ x : List Int, x.length = lo.length →
      (Mem d [] x [] ↔ ∀ i, i < lo.length → lo.getD i 0 ≤ x.getD i 0 ∧ x.getD i 0 ≤ hi.getD i 0) := by
  refine ⟨_, if_pos h, by rw [h], ?_⟩
  intro x hx
  unfold Mem
  simp only [List.mem_flatMap, List.mem_range]
  constructor
  · intro hm i hi'
    exact (bounds_mem (by omega) _ _ x (hx.trans h)).1 (fun c hc => hm c ⟨i, by omega, hc⟩)
  · rintro hm c ⟨i, hi', hc⟩
    exact (bounds_mem hi' _ _ x (hx.trans h)).2 (hm i (by omega)) c hc

/-- **C73, cubes.**  `cloog_domain_cube` gives the points with all coordinates between the two bounds. -/
theorem C73_cube (n : Nat) (lo hi : Int) (x : List Int) (hx : x.length = n) :
    Mem (domainCube n lo hi) [] x [] ↔ ∀ v ∈ x, lo ≤ v ∧ v ≤ hi := by
  unfold Mem domainCube
  simp only [List.mem_flatMap, List.mem_range]
  constructor
  · intro hm v hv
    obtain ⟨i, hi', rfl⟩ := List.mem_iff_getElem.1 hv
    have := (bounds_mem (by omega) lo hi x hx).1 (fun c hc => hm c ⟨i, by omega, hc⟩)
    rw [List.getD_eq_getElem?_getD, List.getElem?_eq_getElem hi'] at this
    exact this
  · rintro hm c ⟨i, hi', hc⟩
    refine (bounds_mem hi' lo hi x hx).2 ?_ c hc
    rw [List.getD_eq_getElem?_getD, List.getElem?_eq_getElem (by omega)]
    exact hm _ (List.getElem_mem _)

example : (∃ d, domainFromBounds [0, 5] [3, 7] = some d ∧ Mem d [] [3, 5] [] ∧ ¬ Mem d [] [4, 5] []) ∧
    Mem (domainCube 2 1 3) [] [1, 3] [] ∧ ¬ Mem (domainCube 2 1 3) [] [1, 4] [] := by
  refine ⟨?_, ?_, ?_⟩
  · obtain ⟨d, h, _, hd⟩ := C73_bounds [0, 5] [3, 7] rfl
    refine ⟨d, h, ?_, ?_⟩
    · rw [hd [3, 5] rfl]
      intro i hi
      match i, hi with
      | 0, _ => decide
      | 1, _ => decide
    · rw [hd [4, 5] rfl]
      intro h
      exact absurd (h 0 (by decide)) (by decide)
  · rw [C73_cube 2 1 3 [1, 3] rfl]
    decide
  · rw [C73_cube 2 1 3 [1, 4] rfl]
    decide

end Verif.Props.MatrixConv
