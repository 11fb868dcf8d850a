import Verif.Model.ImportSet
import Verif.Props.Names
import Verif.Props.UnionDomain

/-!
# C43: names of the dimensions of an imported set
-/

namespace Verif.Props.ImportSet
open Verif.Names Verif.UnionDomain Verif.ImportSet Verif.Props.Names Verif.Props.UnionDomain

/-! ## Specification -/

/-- `s` is `t` followed by an underscore and decimal digits. -/
def Numbered (s t : CStr) : Prop := ∃ ds : CStr, s = t ++ 95 :: ds ∧ ∀ d ∈ ds, 48 ≤ d ∧ d ≤ 57

/-- The decimal numeral of a number. -/
def numeral (n : Nat) : CStr := decDigits (n + 1) n

/-- The name a dimension has or, if it has none, the letter i followed by its position. -/
def wanted (dims : List (Option CStr)) (i : Nat) (s : CStr) : Prop :=
  dims[i]? = some (some s) ∨ (dims[i]? = some none ∧ s = 105 :: numeral i)

/-- All names are different, and different from those of the parameters. -/
def AllDistinct (params names : List CStr) : Prop := names.Nodup ∧ ∀ s ∈ names, s ∉ params

/-! ## Proofs -/

theorem startsWith_self : ∀ s : CStr, startsWith s s = true
  | [] => rfl
  | a :: s => by simp [startsWith, startsWith_self s]

theorem numName_eq (p : CStr) (n : Nat) : numName p n = p ++ numeral n := rfl

theorem numeral_inj {a b : Nat} (h : numeral a = numeral b) : a = b :=
  numName_inj (p := []) h

theorem numeral_digits (n : Nat) : ∀ d ∈ numeral n, 48 ≤ d ∧ d ≤ 57 := decDigits_digits _ _

theorem baseName_wanted {dims : List (Option CStr)} {i : Nat} {n : Option CStr} (h : dims[i]? = some n) :
    wanted dims i (baseName i n) := by
  cases n with
  | none => exact Or.inr ⟨h, rfl⟩
  | some s => exact Or.inl h

theorem decDigits_length : ∀ (fuel n k : Nat), n < 10 ^ (k + 1) → (decDigits fuel n).length ≤ k + 1
  | 0, _, _, _ => by simp [decDigits]
  | fuel + 1, n, k, h => by
    unfold decDigits
    split_ifs with h1
    · simp
    · cases k with
      | zero => omega
      | succ k =>
        have := decDigits_length fuel (n / 10) k (by rw [Nat.div_lt_iff_lt_mul (by omega)]; rw [Nat.pow_succ] at h; exact h)
        simp only [List.length_append, List.length_cons, List.length_nil]
        omega

theorem longName_eq (s : CStr) (n : Nat) (h : n < 10 ^ 8) : longName s n = s ++ 95 :: numeral n := by
  unfold longName
  rw [numName_eq, List.append_assoc]
  apply List.take_of_length_le
  have := decDigits_length (n + 1) n 7 h
  simp only [List.length_append, List.length_cons, List.length_nil, numeral]
  omega

/-- Splitting at the last underscore is unique. -/
theorem split_unique {a b x y : CStr} (hx : ∀ d ∈ x, d ≠ 95) (hy : ∀ d ∈ y, d ≠ 95)
    (h : a ++ 95 :: x = b ++ 95 :: y) : a = b ∧ x = y := by
  rcases List.append_eq_append_iff.1 h with ⟨c, h1, h2⟩ | ⟨c, h1, h2⟩
  · cases c with
    | nil => simp at h1 h2; exact ⟨h1.symm, h2⟩
    | cons d c =>
      simp only [List.cons_append, List.cons.injEq] at h2
      exact absurd rfl (hx 95 (by rw [h2.2]; simp))
  · cases c with
    | nil => simp at h1 h2; exact ⟨h1, h2.symm⟩
    | cons d c =>
      simp only [List.cons_append, List.cons.injEq] at h2
      exact absurd rfl (hy 95 (by rw [h2.2]; simp))

theorem digit_ne {n : Nat} : ∀ d ∈ numeral n, d ≠ 95 := fun d hd => by
  have := numeral_digits n d hd; omega

/-- The part of `countSame` on the dimensions. -/
def same (name : CStr) (n : Option CStr) : Bool :=
  match n with
  | some n => startsWith n name
  | none => false

theorem countSame_eq (params : List CStr) (dims : List (Option CStr)) (i : Nat) (s : CStr) :
    countSame params dims i s = (params.filter fun n => startsWith n s).length +
      ((dims.take i).filter (same s)).length := rfl

theorem countSame_lt {params : List CStr} {dims : List (Option CStr)} {i j : Nat} {s : CStr} (hij : i < j)
    (h : dims[i]? = some (some s)) : countSame params dims i s < countSame params dims j s := by
  rw [countSame_eq, countSame_eq]
  obtain ⟨hi, he⟩ := List.getElem?_eq_some_iff.1 h
  have e : dims.take j = dims.take i ++ dims[i] :: (dims.take j).drop (i + 1) := by
    have h1 : dims.take j = (dims.take j).take (i + 1) ++ (dims.take j).drop (i + 1) :=
      (List.take_append_drop _ _).symm
    rw [List.take_take, Nat.min_eq_left (by omega), List.take_succ_eq_append_getElem hi] at h1
    rw [List.append_assoc] at h1
    exact h1
  rw [e, he, List.filter_append, List.filter_cons]
  simp only [same, startsWith_self, if_true, List.length_append, List.length_cons]
  omega

theorem countSame_param {params : List CStr} {dims : List (Option CStr)} {i : Nat} {s : CStr}
    (h : s ∈ params) : countSame params dims i s ≠ 0 := by
  rw [countSame_eq]
  have : s ∈ params.filter fun n => startsWith n s := List.mem_filter.2 ⟨h, startsWith_self s⟩
  have := List.length_pos_of_mem this
  omega

theorem countSame_le (params : List CStr) (dims : List (Option CStr)) (i : Nat) (s : CStr) :
    countSame params dims i s ≤ params.length + dims.length := by
  rw [countSame_eq]
  have h1 := List.length_filter_le (fun n => startsWith n s) params
  have h2 := List.length_filter_le (same s) (dims.take i)
  have h3 := List.length_take_le i dims
  rw [List.length_take] at h2
  omega

/-- **C43.**  If no wanted name is a parameter's or another wanted name followed by an underscore and
    digits (nor a parameter's name such a wanted name), and no dimension has the name that an earlier dimension without
    a name gets, then the names given to the dimensions are all different and different from those of
    the parameters: repeated names are told apart.
    Partial: the full property has no hypotheses on the names, and is false (`C43_clash`). -/
theorem C43_distinct_partial (params : List CStr) (dims : List (Option CStr))
    (hsize : params.length + dims.length < 10 ^ 8)
    (h1 : ∀ i j s t, wanted dims i s → wanted dims j t → ¬ Numbered s t)
    (h2 : ∀ p ∈ params, ∀ j t, wanted dims j t → ¬ Numbered p t)
    (h3 : ∀ i j, i < j → dims[i]? = some none → dims[j]? ≠ some (some (105 :: numeral i))) :
    AllDistinct params (dimNames params dims) := by
  -- the name given
  have hname : ∀ (i : Nat) (n : Option CStr), dims[i]? = some n →
      (countSame params dims i (baseName i n) = 0 ∧ dimName params dims i n = baseName i n) ∨
      (countSame params dims i (baseName i n) ≠ 0 ∧ dimName params dims i n =
        baseName i n ++ 95 :: numeral (countSame params dims i (baseName i n))) := by
    intro i n _
    unfold dimName
    dsimp only
    by_cases hc : countSame params dims i (baseName i n) = 0
    · left; exact ⟨hc, if_pos hc⟩
    · right
      refine ⟨hc, ?_⟩
      rw [if_neg hc, longName_eq]
      have := countSame_le params dims i (baseName i n)
      omega
  -- equal wanted names mean a named first dimension
  have hbase : ∀ (i j : Nat) (m n : Option CStr), i < j → dims[i]? = some m → dims[j]? = some n →
      baseName i m = baseName j n → m = some (baseName i m) := by
    intro i j m n hij hm hn he
    cases m with
    | some s => rfl
    | none =>
      exfalso
      cases n with
      | some t =>
        apply h3 i j hij hm
        rw [hn]
        exact congrArg (fun x => some (some x)) he.symm
      | none =>
        have : numName [105] i = numName [105] j := he
        have := numName_inj this
        omega
  constructor
  · rw [List.Nodup, List.pairwise_iff_getElem]
    intro i j hi hj hij
    simp only [dimNames, List.length_mapIdx] at hi hj
    simp only [dimNames, List.getElem_mapIdx]
    have gi := List.getElem?_eq_getElem hi
    have gj := List.getElem?_eq_getElem hj
    intro he
    have wi := baseName_wanted gi
    have wj := baseName_wanted gj
    rcases hname i _ gi with ⟨c1, e1⟩ | ⟨c1, e1⟩ <;> rcases hname j _ gj with ⟨c2, e2⟩ | ⟨c2, e2⟩ <;>
      rw [e1, e2] at he
    · have hb := hbase i j _ _ hij gi gj he
      rw [hb] at gi
      have := countSame_lt (params := params) hij gi
      rw [he] at this
      omega
    · exact h1 i j _ _ wi wj ⟨_, he, numeral_digits _⟩
    · exact h1 j i _ _ wj wi ⟨_, he.symm, numeral_digits _⟩
    · obtain ⟨f1, f2⟩ := split_unique digit_ne digit_ne he
      have hb := hbase i j _ _ hij gi gj f1
      have hc := numeral_inj f2
      rw [hb] at gi
      have := countSame_lt (params := params) hij gi
      rw [f1] at hc this
      omega
  · intro s hs hp
    simp only [dimNames, List.mem_mapIdx] at hs
    obtain ⟨i, hi, he⟩ := hs
    have gi := List.getElem?_eq_getElem hi
    rcases hname i _ gi with ⟨c1, e1⟩ | ⟨c1, e1⟩
    · rw [e1] at he
      rw [he] at c1
      exact countSame_param hp c1
    · rw [e1] at he
      exact h2 s hp i _ (baseName_wanted gi) ⟨_, he.symm, numeral_digits _⟩

/-- ["i_1", "i"]: `strncmp` finds that "i_1" starts with "i". -/
theorem C43_clash : ∃ params dims, ¬ AllDistinct params (dimNames params dims) ∧
    ∃ a b : CStr, a ≠ b ∧ dims = [some a, some b] ∧ params = [] := by
  refine ⟨[], [some [105, 95, 49], some [105]], ?_, [105, 95, 49], [105], by decide, rfl, rfl⟩
  have : dimNames [] [some [105, 95, 49], some [105]] = [[105, 95, 49], [105, 95, 49]] := by decide
  rw [this]
  rintro ⟨h, _⟩
  simp at h

/-- A dimension without a name and one named "i0". -/
theorem C43_clash_default : ¬ AllDistinct [] (dimNames [] [none, some [105, 48]]) := by
  have : dimNames [] [none, some [105, 48]] = [[105, 48], [105, 48]] := by decide
  rw [this]
  rintro ⟨h, _⟩
  simp at h

/-- Three dimensions i, i, and j with a parameter i: i_1, i_2, j. -/
example : dimNames [[105]] [some [105], some [105], some [106]] =
    [[105, 95, 49], [105, 95, 50], [106]] := by decide

/-- The hypotheses hold for dimensions i, i, j. -/
example : AllDistinct [[105]] (dimNames [[105]] [some [105], some [105], some [106]]) := by
  have hw : ∀ i s, wanted [some [105], some [105], some [106]] i s → s = [105] ∨ s = [106] := by
    intro i s h
    match i with
    | 0 => rcases h with h | ⟨h, _⟩ <;> simp at h; exact Or.inl h.symm
    | 1 => rcases h with h | ⟨h, _⟩ <;> simp at h; exact Or.inl h.symm
    | 2 => rcases h with h | ⟨h, _⟩ <;> simp at h; exact Or.inr h.symm
    | i + 3 => rcases h with h | ⟨h, _⟩ <;> simp at h
  have hn : ∀ s t, (s = [105] ∨ s = [106]) → (t = [105] ∨ t = [106]) → ¬ Numbered s t := by
    rintro s t hs ht ⟨ds, h, _⟩
    rcases hs with rfl | rfl <;> rcases ht with rfl | rfl <;> simp at h
  apply C43_distinct_partial
  · decide
  · intro i j s t h1 h2; exact hn s t (hw i s h1) (hw j t h2)
  · intro p hp j t h2; simp at hp; exact hn p t (Or.inl hp) (hw j t h2)
  · intro i j _ h
    match i with
    | 0 => simp at h
    | 1 => simp at h
    | 2 => simp at h
    | i + 3 => simp at h

/-! ## The union domain -/

variable {D S U : Type} {dim : D → Nat} {sdim : S → Nat}

theorem nameCalls_run (t : Ty) (names done : List CStr) (ud : UD D S U)
    (hn : ud.n t = done.length + names.length)
    (hd : (ud.names t).getD (List.replicate (ud.n t) none) =
      done.map some ++ List.replicate names.length none)
    (h0 : names = [] → ud.names t = none → done = []) :
    ∃ ud', run dim sdim (names.mapIdx fun i n => Call.setName (some t) ((done.length + i : Nat) : Int) n) ud
        = .ok ud' ∧ ud'.n = ud.n ∧ ud'.domains = ud.domains ∧
      (∀ t', t' ≠ t → ud'.names t' = ud.names t') ∧
      (names ≠ [] → ud'.names t = some ((done ++ names).map some)) ∧
      (names = [] → ud'.names t = ud.names t) := by
  induction names generalizing done ud with
  | nil => exact ⟨ud, rfl, rfl, rfl, fun _ _ => rfl, fun h => absurd rfl h, fun _ => rfl⟩
  | cons a names ih =>
    rw [List.mapIdx_cons]
    simp only [run, step, setName]
    rw [if_neg (by rw [hn]; simp only [List.length_cons]; omega)]
    dsimp only
    obtain ⟨ud', r1, r2, r3, r4, r5, r6⟩ := ih (done ++ [a])
      { ud with names := fun t' => if t' = t then some <|
          ((ud.names t).getD (List.replicate (ud.n t) none)).set done.length (some a) else ud.names t' }
      (by simp [hn]; omega)
      (by
        simp only [if_true, Option.getD_some, hd]
        simp [List.replicate_succ])
      (by intro _ h; simp at h)
    refine ⟨ud', ?_, r2, r3, ?_, ?_, ?_⟩
    · rw [← r1]
      simp only [List.length_append, List.length_cons, List.length_nil]
      have e : ((done.length + 0 : Nat) : Int).toNat = done.length := by omega
      rw [e]
      congr 1
      apply List.ext_getElem?
      intro k
      simp only [List.getElem?_mapIdx]
      congr 1
      funext x
      congr 2
      omega
    · intro t' ht'
      rw [r4 t' ht']
      simp [ht']
    · intro _
      by_cases hnn : names = []
      · rw [r6 hnn]
        subst hnn
        simp only [if_true, hd]
        simp [List.replicate_succ]
      · rw [r5 hnn]; simp
    · intro h; cases h

/-- The dimension names of an imported set are those of `dimNames`, the parameter names those of the
    set, and there is one domain, if the set has parameters and dimensions. -/
theorem C43_import (params : List CStr) (dims : List (Option CStr)) (a : Named D S U)
    (hd : dim a.dom = dims.length) (hs : a.scat = none) (hp : params ≠ []) (hi : dims ≠ []) :
    ∃ ud, run dim sdim (importCalls params dims a) (alloc params.length) = .ok ud ∧
      ud.domains = [a] ∧ ud.n .param = params.length ∧ ud.n .iter = dims.length ∧
      ud.names .param = some (params.map some) ∧
      ud.names .iter = some ((dimNames params dims).map some) ∧ ud.names .scat = none := by
  unfold importCalls
  rw [run_append, run_append]
  obtain ⟨u1, p1, p2, p3, p4, p5, _⟩ := nameCalls_run (dim := dim) (sdim := sdim) .param params []
    (alloc params.length : UD D S U) (by simp [alloc]) (by simp [alloc]) (by simp)
  have e1 : nameCalls (D := D) (S := S) (U := U) .param params =
      params.mapIdx fun i n => Call.setName (some .param) ((([] : List CStr).length + i : Nat) : Int) n := by
    simp [nameCalls]
  rw [e1, p1]
  dsimp only
  have q1 : u1.names .iter = none := by rw [p4 _ (by decide)]; rfl
  have q2 : u1.names .scat = none := by rw [p4 _ (by decide)]; rfl
  have e2 : run dim sdim [Call.add a] u1 =
      .ok { u1 with n := grow dim sdim a u1.n, domains := u1.domains ++ [a] } := by
    simp [run, step, addDomain, q1, q2]
  rw [e2]
  dsimp only
  have hn : grow dim sdim a u1.n .iter = dims.length := by
    have := List.length_pos_iff.2 hi
    simp only [grow, p2, alloc, hd]
    rw [if_pos (by omega)]
  obtain ⟨u2, s1, s2, s3, s4, s5, _⟩ := nameCalls_run (dim := dim) (sdim := sdim) .iter (dimNames params dims) []
    ({ u1 with n := grow dim sdim a u1.n, domains := u1.domains ++ [a] } : UD D S U)
    (by simp [dimNames, hn]) (by simp [q1, hn, dimNames]) (by simp)
  have e3 : nameCalls (D := D) (S := S) (U := U) .iter (dimNames params dims) =
      (dimNames params dims).mapIdx
        fun i n => Call.setName (some .iter) ((([] : List CStr).length + i : Nat) : Int) n := by
    simp [nameCalls]
  rw [e3, s1]
  refine ⟨u2, rfl, ?_, ?_, ?_, ?_, ?_, ?_⟩
  · rw [s3]; simp [p3, alloc]
  · rw [s2]; simp [grow, p2, alloc]
  · rw [s2]; exact hn
  · rw [s4 _ (by decide)]; simpa using p5 hp
  · have := s5 (by
      intro h
      have h := congrArg List.length h
      simp [dimNames] at h
      exact hi h)
    simpa using this
  · rw [s4 _ (by decide)]; exact q2

/-- A set with parameter n and dimensions i and i. -/
example : ∃ ud, run (fun d : Nat => d) (fun s : Nat => s)
    (importCalls [[110]] [some [105], some [105]] (⟨some [83], 2, none, ()⟩ : Named Nat Nat Unit)) (alloc 1)
      = .ok ud ∧ ud.names .iter = some [some [105], some [105, 95, 49]] := by
  obtain ⟨ud, h, _, _, _, _, h5, _⟩ := C43_import (dim := fun d : Nat => d) (sdim := fun s : Nat => s)
    [[110]] [some [105], some [105]] (⟨some [83], 2, none, ()⟩ : Named Nat Nat Unit) rfl rfl
    (by decide) (by decide)
  exact ⟨ud, h, h5⟩

end Verif.Props.ImportSet
