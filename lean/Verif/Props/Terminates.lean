import Verif.Props.OneCopy
import Verif.Lemmas.BoxDom
import Mathlib.Algebra.Order.BigOperators.Group.List
import Mathlib.Data.List.TakeWhile

/-!
# C70: code generation terminates

The loops and recursions of `source/loop.c` whose number of rounds is not given by the length of a list have a
counter in the model.  Here it is shown that from some value of the counter on the result is always the same one.
-/

namespace Verif.Props.Terminates
open Verif.Loop Verif.ScalarSort Verif.Gen

variable {D S C : Type} {o : DomOps D S C}

/-! ## Specification -/

/-- A computation with a bound on the number of rounds ends: from some bound on there is one result. -/
def Ends {α : Type} (f : Nat → Option α) : Prop := ∃ r n₀, ∀ n, n₀ ≤ n → f n = some r

/-- What is assumed of isl.  `size` is the number of polyhedra of a union, `PD d` says that they do not overlap,
    `Apart a b` that two unions do not overlap.  Subtracting from a polyhedron gives polyhedra that do not overlap, and
    leaves it as it is if there is no overlap.  `cloog_domain_sort` returns (it may not, see C19).  No operation adds
    dimensions but those that have to. -/
structure TermLaws (o : DomOps D S C) (size : D → Nat) (PD : D → Prop) (Apart : D → D → Prop) : Prop where
  cut_empty : ∀ d, o.isEmpty d = false → size (o.cutFirst d).2 < size d
  cut_union : ∀ d, o.isConvex d = false → size (o.cutFirst d).2 < size d
  cutConvex : ∀ d, o.isConvex (o.cutFirst d).1 = true
  diff_parts : ∀ a b, o.isConvex a = true → PD (o.diff a b)
  diff_apart : ∀ a b, o.isConvex a = true → Apart a b → o.isConvex (o.diff a b) = true
  simplifyUnion : ∀ d, PD d → PD (o.simplifyUnion d)
  cut_parts : ∀ d, PD d → PD (o.cutFirst d).2 ∧ Apart (o.cutFirst d).2 (o.cutFirst d).1
  cut_apart : ∀ d b, Apart d b → Apart (o.cutFirst d).1 b ∧ Apart (o.cutFirst d).2 b
  union_apart : ∀ a b c, Apart a b → Apart a c → Apart a (o.union b (o.diff c b))
  sort : ∀ ds L, ∃ perm, o.sort ds L = some perm
  icmp : Verif.Props.Expr.ICmpExact o.icmp
  dim_cut : ∀ d, o.dim (o.cutFirst d).1 ≤ o.dim d ∧ o.dim (o.cutFirst d).2 ≤ o.dim d
  dim_simplifyUnion : ∀ d, o.dim (o.simplifyUnion d) ≤ o.dim d
  dim_inter : ∀ a b, o.dim (o.inter a b) ≤ max (o.dim a) (o.dim b)
  dim_union : ∀ a b, o.dim (o.union a b) ≤ max (o.dim a) (o.dim b)
  dim_diff : ∀ a b, o.dim (o.diff a b) ≤ max (o.dim a) (o.dim b)
  dim_empty : ∀ d, o.dim (o.empty d) ≤ o.dim d
  dim_extend : ∀ d n, o.dim (o.extend d n) ≤ max (o.dim d) n
  dim_project : ∀ d n, o.dim (o.project d n) ≤ max (o.dim d) n
  dim_convex : ∀ d, o.dim (o.convex d) ≤ o.dim d
  dim_simpleConvex : ∀ d, o.dim (o.simpleConvex d) ≤ o.dim d
  dim_splitter : ∀ d L, o.dim (o.boundSplitter d L) ≤ o.dim d

/-! ## Proofs -/

theorem Ends.const {α : Type} (r : α) : Ends (fun _ => some r) := ⟨r, 0, fun _ _ => rfl⟩

theorem Ends.succ {α : Type} {f : Nat → Option α} (h : Ends (fun n => f (n + 1))) : Ends f := by
  obtain ⟨r, n₀, h⟩ := h
  refine ⟨r, n₀ + 1, fun n hn => ?_⟩
  obtain ⟨m, rfl⟩ : ∃ m, n = m + 1 := ⟨n - 1, by omega⟩
  exact h m (by omega)

theorem Ends.map {α β : Type} {f : Nat → Option α} (g : α → β) (hf : Ends f) : Ends (fun n => (f n).map g) := by
  obtain ⟨r, n₀, h⟩ := hf
  exact ⟨g r, n₀, fun n hn => by show (f n).map g = _; rw [h n hn]; rfl⟩

theorem flatMapM_ends {α β : Type} {f : Nat → α → Option (List β)} : ∀ (l : List α), (∀ a ∈ l, Ends (fun n => f n a)) →
    Ends (fun n => flatMapM (f n) l)
  | [], _ => Ends.const []
  | a :: l, h => by
    obtain ⟨r, n₀, h0⟩ := h a (by simp)
    obtain ⟨t, n₁, h1⟩ := flatMapM_ends l (fun b hb => h b (by simp [hb]))
    refine ⟨r ++ t, max n₀ n₁, fun n hn => ?_⟩
    have e0 := h0 n (by omega)
    have e1 := h1 n (by omega)
    dsimp only at e0 e1 ⊢
    rw [flatMapM, e0]
    dsimp only
    rw [e1]

section
variable {size : D → Nat} {PD : D → Prop} {Apart : D → D → Prop} (K : TermLaws o size PD Apart)
include K

/-- Without overlap there are no recursive calls. -/
theorem split_apart (b : Option Block) (inner : List (Loop D S)) : ∀ (m : Nat) (rest seen : D), size rest ≤ m → PD rest →
    Apart rest seen → ∃ r k₀, ∀ k, k₀ ≤ k → ∀ rec_, splitRest o rec_ b inner k rest seen = some r := by
  intro m
  induction m with
  | zero =>
    intro rest seen hm _ _
    refine ⟨[], 1, fun k hk rec_ => ?_⟩
    obtain ⟨k, rfl⟩ : ∃ j, k = j + 1 := ⟨k - 1, by omega⟩
    rw [splitRest]
    cases he : o.isEmpty rest with
    | true => simp
    | false => have := K.cut_empty _ he; omega
  | succ m ih =>
    intro rest seen hm hp ha
    by_cases he : o.isEmpty rest = true
    · refine ⟨[], 1, fun k hk rec_ => ?_⟩
      obtain ⟨k, rfl⟩ : ∃ j, k = j + 1 := ⟨k - 1, by omega⟩
      rw [splitRest, if_pos he]
    · have hlt := K.cut_empty rest (by simpa using he)
      obtain ⟨p1, p2⟩ := K.cut_parts rest hp
      obtain ⟨a1, a2⟩ := K.cut_apart rest seen ha
      by_cases hd : o.isEmpty (o.diff (o.cutFirst rest).1 seen) = true
      · obtain ⟨r, k₀, h⟩ := ih (o.cutFirst rest).2 seen (by omega) p1 a2
        refine ⟨r, k₀ + 1, fun k hk rec_ => ?_⟩
        obtain ⟨k, rfl⟩ : ∃ j, k = j + 1 := ⟨k - 1, by omega⟩
        rw [splitRest, if_neg he, if_pos hd]
        exact h k (by omega) rec_
      · have hc := K.diff_apart _ seen (K.cutConvex rest) a1
        obtain ⟨r, k₀, h⟩ := ih (o.cutFirst rest).2 (o.union seen (o.diff (o.cutFirst rest).1 seen)) (by omega) p1
          (K.union_apart _ _ _ a2 p2)
        by_cases hr : o.isEmpty (o.cutFirst rest).2 = true
        · refine ⟨[Loop.mk (o.diff (o.cutFirst rest).1 seen) false none b inner], 1, fun k hk rec_ => ?_⟩
          obtain ⟨k, rfl⟩ : ∃ j, k = j + 1 := ⟨k - 1, by omega⟩
          rw [splitRest, if_neg he, if_neg hd, if_pos hc]
          dsimp only
          rw [if_pos hr]
        · refine ⟨[Loop.mk (o.diff (o.cutFirst rest).1 seen) false none b inner] ++ r, k₀ + 1, fun k hk rec_ => ?_⟩
          obtain ⟨k, rfl⟩ : ∃ j, k = j + 1 := ⟨k - 1, by omega⟩
          rw [splitRest, if_neg he, if_neg hd, if_pos hc]
          dsimp only
          rw [if_neg hr, h k (by omega) rec_]

theorem addDisjoint_parts (l : Loop D S) (hp : PD l.dom) : Ends (fun n => addDisjoint o n l) := by
  by_cases hc : o.isConvex l.dom = true
  · refine Ends.succ ?_
    simp only [addDisjoint, if_pos hc]
    exact Ends.const _
  · obtain ⟨p1, p2⟩ := K.cut_parts _ (K.simplifyUnion _ hp)
    obtain ⟨r, k₀, h⟩ := split_apart K l.block l.inner _ (o.cutFirst (o.simplifyUnion l.dom)).2
      (o.cutFirst (o.simplifyUnion l.dom)).1 (Nat.le_refl _) p1 p2
    refine Ends.succ ⟨Loop.mk (o.cutFirst (o.simplifyUnion l.dom)).1 false none l.block l.inner :: r, k₀,
      fun n hn => ?_⟩
    dsimp only
    rw [addDisjoint, if_neg hc, h n hn]

theorem split_any (b : Option Block) (inner : List (Loop D S)) : ∀ (m : Nat) (rest seen : D), size rest ≤ m →
    ∃ r n₀ k₀, ∀ n, n₀ ≤ n → ∀ k, k₀ ≤ k → splitRest o (addDisjoint o n) b inner k rest seen = some r := by
  intro m
  induction m with
  | zero =>
    intro rest seen hm
    refine ⟨[], 0, 1, fun n _ k hk => ?_⟩
    obtain ⟨k, rfl⟩ : ∃ j, k = j + 1 := ⟨k - 1, by omega⟩
    rw [splitRest]
    cases he : o.isEmpty rest with
    | true => simp
    | false => have := K.cut_empty _ he; omega
  | succ m ih =>
    intro rest seen hm
    by_cases he : o.isEmpty rest = true
    · refine ⟨[], 0, 1, fun n _ k hk => ?_⟩
      obtain ⟨k, rfl⟩ : ∃ j, k = j + 1 := ⟨k - 1, by omega⟩
      rw [splitRest, if_pos he]
    · have hlt := K.cut_empty rest (by simpa using he)
      by_cases hd : o.isEmpty (o.diff (o.cutFirst rest).1 seen) = true
      · obtain ⟨r, n₀, k₀, h⟩ := ih (o.cutFirst rest).2 seen (by omega)
        refine ⟨r, n₀, k₀ + 1, fun n hn k hk => ?_⟩
        obtain ⟨k, rfl⟩ : ∃ j, k = j + 1 := ⟨k - 1, by omega⟩
        rw [splitRest, if_neg he, if_pos hd]
        exact h n hn k (by omega)
      · have hrec : ∃ q n₁, ∀ n, n₁ ≤ n → (if o.isConvex (o.diff (o.cutFirst rest).1 seen) then
            some [Loop.mk (o.diff (o.cutFirst rest).1 seen) false none b inner]
            else addDisjoint o n (Loop.mk (o.diff (o.cutFirst rest).1 seen) false none b inner)) = some q := by
          by_cases hc : o.isConvex (o.diff (o.cutFirst rest).1 seen) = true
          · exact ⟨_, 0, fun n _ => by rw [if_pos hc]⟩
          · obtain ⟨q, n₁, h⟩ := addDisjoint_parts K (Loop.mk (o.diff (o.cutFirst rest).1 seen) false none b inner)
              (K.diff_parts _ _ (K.cutConvex rest))
            exact ⟨q, n₁, fun n hn => by rw [if_neg hc]; exact h n hn⟩
        obtain ⟨q, n₁, hq⟩ := hrec
        obtain ⟨r, n₀, k₀, h⟩ := ih (o.cutFirst rest).2 (o.union seen (o.diff (o.cutFirst rest).1 seen)) (by omega)
        by_cases hr : o.isEmpty (o.cutFirst rest).2 = true
        · refine ⟨q, n₁, 1, fun n hn k hk => ?_⟩
          obtain ⟨k, rfl⟩ : ∃ j, k = j + 1 := ⟨k - 1, by omega⟩
          rw [splitRest, if_neg he, if_neg hd, hq n hn]
          dsimp only
          rw [if_pos hr]
        · refine ⟨q ++ r, max n₀ n₁, k₀ + 1, fun n hn k hk => ?_⟩
          obtain ⟨k, rfl⟩ : ∃ j, k = j + 1 := ⟨k - 1, by omega⟩
          rw [splitRest, if_neg he, if_neg hd, hq n (by omega)]
          dsimp only
          rw [if_neg hr, h n (by omega) k (by omega)]

theorem addDisjoint_ends (l : Loop D S) : Ends (fun n => addDisjoint o n l) := by
  by_cases hc : o.isConvex l.dom = true
  · refine Ends.succ ?_
    simp only [addDisjoint, if_pos hc]
    exact Ends.const _
  · obtain ⟨r, n₀, k₀, h⟩ := split_any K l.block l.inner _ (o.cutFirst (o.simplifyUnion l.dom)).2
      (o.cutFirst (o.simplifyUnion l.dom)).1 (Nat.le_refl _)
    refine Ends.succ ⟨Loop.mk (o.cutFirst (o.simplifyUnion l.dom)).1 false none l.block l.inner :: r, max n₀ k₀,
      fun n hn => ?_⟩
    dsimp only
    rw [addDisjoint, if_neg hc, h n (by omega) n (by omega)]

theorem disjoint_ends (ls : List (Loop D S)) : Ends (fun n => disjoint o n ls) :=
  flatMapM_ends ls (fun l _ => addDisjoint_ends K l)

theorem sepLoop_ends : ∀ (ls res : List (Loop D S)) (uq : D), Ends (fun n => sepLoop o n ls res uq)
  | [], res, _ => Ends.const res
  | l :: ls, res, uq => by
    obtain ⟨r, n₀, h0⟩ := flatMapM_ends (sepPieces o res uq l) (fun l _ => addDisjoint_ends K l)
    obtain ⟨t, n₁, h1⟩ := sepLoop_ends ls r (o.union uq l.dom)
    refine ⟨t, max n₀ n₁, fun n hn => ?_⟩
    have e0 := h0 n (by omega)
    have e1 := h1 n (by omega)
    dsimp only at e0 e1 ⊢
    rw [sepLoop, e0]
    exact e1

theorem separate_ends (ls : List (Loop D S)) : Ends (fun n => separate o n ls) := by
  unfold separate
  cases combine o ls with
  | nil => exact Ends.const []
  | cons l ls =>
    cases ls with
    | nil => exact disjoint_ends K [l]
    | cons m ls => exact sepLoop_ends K (m :: ls) _ _

theorem mergeSplit_ends (opt : Options) (t : D) (inner : List (Loop D S)) : ∀ (m : Nat) (s : D) (res : List (Loop D S)),
    size s ≤ m → Ends (fun n => mergeSplit o opt t inner n s res) := by
  intro m
  induction m with
  | zero =>
    intro s res hm
    refine Ends.succ ?_
    simp only [mergeSplit]
    cases hc : o.isConvex s with
    | true =>
      simp only [if_true]
      split
      · exact Ends.const _
      · exact Ends.const _
    | false => have := K.cut_union _ hc; omega
  | succ m ih =>
    intro s res hm
    refine Ends.succ ?_
    simp only [mergeSplit]
    cases hc : o.isConvex s with
    | true =>
      simp only [if_true]
      split
      · exact Ends.const _
      · exact Ends.const _
    | false =>
      have := K.cut_union _ hc
      simp only [Bool.false_eq_true, if_false]
      exact ih _ _ (by omega)

theorem merge_ends (L : Nat) (opt : Options) (ls : List (Loop D S)) : Ends (fun n => merge o n L opt ls) := by
  cases ls with
  | nil => exact Ends.const []
  | cons l ls =>
    simp only [merge]
    split
    · exact Ends.const _
    · split
      · exact mergeSplit_ends K _ _ _ _ _ _ (Nat.le_refl _)
      · exact Ends.const _

theorem sort_some (L : Nat) (ls : List (Loop D S)) : ∃ r, Loop.sort o L ls = some r := by
  unfold Loop.sort
  split
  · exact ⟨_, rfl⟩
  · split
    · exact ⟨_, rfl⟩
    · obtain ⟨p, hp⟩ := K.sort (ls.map Loop.dom) L
      rw [hp]
      exact ⟨_, rfl⟩

theorem backtrack_ends (L : Nat) (ls : List (Loop D S)) : Ends (fun n => backtrack o n L ls) := by
  refine flatMapM_ends ls (fun l _ => ?_)
  unfold backtrackLoop
  split
  · exact Ends.const _
  · obtain ⟨r, n₀, h0⟩ := separate_ends K (l.inner.map (backtrackOne o L l.dom))
    obtain ⟨q, hq⟩ := sort_some K L r
    refine ⟨q, n₀, fun n hn => ?_⟩
    have e0 := h0 n hn
    dsimp only at e0 ⊢
    rw [e0]
    exact hq

omit K in
theorem componentsOf_some (fol : Loop D S → Loop D S → Bool → Bool) (ls : List (Loop D S)) :
    ∃ cs, componentsOf fol ls = some cs := by
  unfold componentsOf
  obtain ⟨cs, h1, _⟩ := Verif.Props.Tarjan.C21_components (edge fol ls) ls.length (fun _ => (0, false))
  rw [h1]
  exact ⟨_, rfl⟩

omit K in
theorem specialize_some (L s : Nat) (scaldims : List Nat) (ls : List (Loop D S)) :
    ∃ r, specialize o L s scaldims ls = some r := by
  have h1 : ∀ l : Loop D S, Ends (fun _ => decomposeOne o L s scaldims l) := by
    intro l
    unfold decomposeOne
    split
    · exact Ends.const _
    · obtain ⟨cs, hcs⟩ := componentsOf_some (fun a b => follows o a b L s scaldims) l.inner
      rw [hcs]
      exact Ends.const _
  obtain ⟨r, n, h⟩ := flatMapM_ends ls (fun l _ => h1 l)
  have e := h n (Nat.le_refl _)
  dsimp only at e
  unfold specialize decomposeInner
  rw [e]
  exact ⟨_, rfl⟩

theorem step3b_some (c : Ctx) (L s : Nat) (sep : Bool) (ls : List (Loop D S)) : ∃ r, step3b o c L s sep ls = some r := by
  unfold step3b
  obtain ⟨r, hr⟩ := sort_some K L ls
  rw [hr]
  dsimp only
  split
  · exact specialize_some L s _ _
  · exact ⟨_, rfl⟩

theorem nest_ends (ls : List (Loop D S)) (ctx : D) (L : Nat) : Ends (fun n => nest o n ls ctx L) := by
  obtain ⟨r, n₀, h0⟩ := disjoint_ends K ls
  refine ⟨r.filterMap (nestOne o ctx L), n₀, fun n hn => ?_⟩
  have e0 := h0 n hn
  dsimp only at e0 ⊢
  rw [nest, e0]

theorem step3_ends (c : Ctx) (L s : Nat) (first : Int) (ls : List (Loop D S)) :
    Ends (fun n => step3 o n c L s first ls) := by
  unfold step3
  split
  · exact Ends.const _
  · split
    · exact (merge_ends K _ _ _).map _
    · exact (separate_ends K _).map _

theorem step5_ends (c : Ctx) (L s : Nat) (first last : Int) (ls : List (Loop D S)) :
    Ends (fun n => step5 o n c L s first last ls) := by
  unfold step5
  dsimp only
  split
  · exact backtrack_ends K _ _
  · exact Ends.const _

/-! ### Dimensions -/

omit K in
/-- A loop whose domain and whose inner loops have at most `N` dimensions. -/
def Small (o : DomOps D S C) (N : Nat) (l : Loop D S) : Prop :=
  o.dim l.dom ≤ N ∧ ∀ i ∈ l.inner, o.dim i.dom ≤ N

theorem splitRest_small {N : Nat} {rec_ : Loop D S → Option (List (Loop D S))} {b : Option Block}
    {inner : List (Loop D S)} (hin : ∀ i ∈ inner, o.dim i.dom ≤ N)
    (hrec : ∀ l r, Small o N l → rec_ l = some r → ∀ q ∈ r, Small o N q) :
    ∀ (k : Nat) (rest seen : D) (r : List (Loop D S)), o.dim rest ≤ N → o.dim seen ≤ N →
    splitRest o rec_ b inner k rest seen = some r → ∀ q ∈ r, Small o N q
  | 0, _, _, _, _, _, h => by simp [splitRest] at h
  | k + 1, rest, seen, r, h1, h2, h => by
    rw [splitRest] at h
    have hc := K.dim_cut rest
    have hd : o.dim (o.diff (o.cutFirst rest).1 seen) ≤ N := by
      have := K.dim_diff (o.cutFirst rest).1 seen
      omega
    split at h
    · obtain rfl := Option.some.inj h
      simp
    · split at h
      · exact splitRest_small hin hrec k _ _ r (by omega) h2 h
      · split at h
        · exact absurd h (by simp)
        · rename_i pieces hp
          have hpieces : ∀ q ∈ pieces, Small o N q := by
            split at hp
            · obtain rfl := Option.some.inj hp
              intro q hq
              rw [List.mem_singleton] at hq
              subst hq
              exact ⟨hd, hin⟩
            · exact hrec (Loop.mk (o.diff (o.cutFirst rest).1 seen) false none b inner) _ ⟨hd, hin⟩ hp
          split at h
          · obtain rfl := Option.some.inj h
            exact hpieces
          · split at h
            · exact absurd h (by simp)
            · rename_i more hm
              obtain rfl := Option.some.inj h
              intro q hq
              rcases List.mem_append.1 hq with hq | hq
              · exact hpieces q hq
              · refine splitRest_small hin hrec k _ _ more (by omega) ?_ hm q hq
                have := K.dim_union seen (o.diff (o.cutFirst rest).1 seen)
                omega

theorem addDisjoint_small {N : Nat} : ∀ (n : Nat) (l : Loop D S) (r : List (Loop D S)), Small o N l →
    addDisjoint o n l = some r → ∀ q ∈ r, Small o N q
  | 0, _, _, _, h => by simp [addDisjoint] at h
  | n + 1, l, r, hl, h => by
    rw [addDisjoint] at h
    have hc := K.dim_cut (o.simplifyUnion l.dom)
    have hs := K.dim_simplifyUnion l.dom
    have h1 := hl.1
    split at h
    · obtain rfl := Option.some.inj h
      intro q hq
      rw [List.mem_singleton] at hq
      subst hq
      exact hl
    · split at h
      · exact absurd h (by simp)
      · rename_i more hm
        obtain rfl := Option.some.inj h
        intro q hq
        rcases List.mem_cons.1 hq with rfl | hq
        · exact ⟨by simp only [Loop.dom_mk]; omega, hl.2⟩
        · exact splitRest_small K hl.2 (fun l r h1 h2 => addDisjoint_small n l r h1 h2) n _ _ more (by omega) (by omega)
            hm q hq

omit K in
theorem combineFrom_small {N : Nat} : ∀ (ls : List (Loop D S)) (a : Loop D S), Small o N a → (∀ l ∈ ls, Small o N l) →
    ∀ q ∈ combineFrom o a ls, Small o N q
  | [], a, ha, _, q, hq => by
    rw [combineFrom, List.mem_singleton] at hq
    subst hq
    exact ha
  | b :: ls, a, ha, hls, q, hq => by
    rw [combineFrom] at hq
    have hb := hls b (by simp)
    split at hq
    · refine combineFrom_small ls _ ?_ (fun l hl => hls l (by simp [hl])) q hq
      cases a
      refine ⟨ha.1, fun i hi => ?_⟩
      rcases List.mem_append.1 hi with hi | hi
      · exact ha.2 i hi
      · exact hb.2 i hi
    · rcases List.mem_cons.1 hq with rfl | hq
      · exact ha
      · exact combineFrom_small ls b hb (fun l hl => hls l (by simp [hl])) q hq

theorem sepPieces_small {N : Nat} {res : List (Loop D S)} {uq : D} {l : Loop D S} (h1 : ∀ q ∈ res, Small o N q)
    (h2 : o.dim uq ≤ N) (h3 : Small o N l) : ∀ q ∈ sepPieces o res uq l, Small o N q := by
  intro q hq
  have h3' := h3.1
  unfold sepPieces at hq
  rcases List.mem_append.1 hq with hq | hq
  · obtain ⟨p, hp, hq⟩ := List.mem_flatMap.1 hq
    have hp' := (h1 p hp).1
    rcases List.mem_append.1 hq with hq | hq
    · rw [Option.mem_toList] at hq
      unfold sepInter at hq
      split at hq
      · exact absurd hq (by simp)
      · dsimp only at hq
        have hd : o.dim (if o.lazyEqual p.dom l.dom then p.dom else o.inter p.dom l.dom) ≤ N := by
          have := K.dim_inter p.dom l.dom
          split <;> omega
        obtain ⟨_, hq⟩ := Option.ite_none_left_eq_some.1 hq
        obtain rfl := Option.some.inj hq
        refine ⟨hd, fun i hi => ?_⟩
        rcases List.mem_append.1 hi with hi | hi
        · exact (h1 p hp).2 i hi
        · exact h3.2 i hi
    · rw [Option.mem_toList] at hq
      unfold sepDiff at hq
      dsimp only at hq
      have hd : o.dim (if (sepInter o p l).isNone then p.dom
          else if o.lazyEqual p.dom l.dom then o.empty p.dom else o.diff p.dom l.dom) ≤ N := by
        have := K.dim_diff p.dom l.dom
        have := K.dim_empty p.dom
        split
        · omega
        · split <;> omega
      obtain ⟨_, hq⟩ := Option.ite_none_left_eq_some.1 hq
      obtain rfl := Option.some.inj hq
      exact ⟨hd, (h1 p hp).2⟩
  · rw [Option.mem_toList] at hq
    unfold sepRest at hq
    dsimp only at hq
    have hd : o.dim (if o.lazyDisjoint l.dom uq then l.dom
        else if o.lazyEqual l.dom uq then o.empty uq else o.diff l.dom uq) ≤ N := by
      have := K.dim_diff l.dom uq
      have := K.dim_empty uq
      split
      · omega
      · split <;> omega
    obtain ⟨_, hq⟩ := Option.ite_none_left_eq_some.1 hq
    obtain rfl := Option.some.inj hq
    exact ⟨hd, h3.2⟩

theorem sepLoop_small {N n : Nat} : ∀ (ls res : List (Loop D S)) (uq : D) (r : List (Loop D S)),
    (∀ l ∈ ls, Small o N l) → (∀ q ∈ res, Small o N q) → o.dim uq ≤ N → sepLoop o n ls res uq = some r →
    ∀ q ∈ r, Small o N q
  | [], res, _, r, _, h2, _, h => by
    rw [sepLoop] at h
    obtain rfl := Option.some.inj h
    exact h2
  | l :: ls, res, uq, r, h1, h2, h3, h => by
    rw [sepLoop] at h
    split at h
    · exact absurd h (by simp)
    · rename_i res' hr
      have hl := h1 l (by simp)
      refine sepLoop_small ls res' _ r (fun a ha => h1 a (by simp [ha])) (fun q hq => ?_) ?_ h
      · obtain ⟨a, ha, bs, hbs, hqb⟩ := flatMapM_mem hr hq
        exact addDisjoint_small K _ _ _ (sepPieces_small K h2 h3 hl a ha) hbs q hqb
      · have := K.dim_union uq l.dom
        have := hl.1
        omega

theorem separate_small {N n : Nat} {ls r : List (Loop D S)} (h1 : ∀ l ∈ ls, Small o N l)
    (h : separate o n ls = some r) : ∀ q ∈ r, Small o N q := by
  have hc : ∀ q ∈ combine o ls, Small o N q := by
    cases ls with
    | nil => simp [combine]
    | cons a ls => exact combineFrom_small ls a (h1 a (by simp)) (fun l hl => h1 l (by simp [hl]))
  unfold separate at h
  split at h
  · obtain rfl := Option.some.inj h
    simp
  · rename_i l he
    rw [he] at hc
    intro q hq
    obtain ⟨a, ha, bs, hbs, hqb⟩ := flatMapM_mem h hq
    exact addDisjoint_small K _ _ _ (hc a ha) hbs q hqb
  · rename_i l ls' _ he
    rw [he] at hc
    have hl := hc l (by simp)
    refine sepLoop_small K ls' _ _ r (fun l hl => hc l (by simp [hl])) (fun q hq => ?_) hl.1 h
    rw [List.mem_singleton] at hq
    subst hq
    exact hl

theorem unionDom_small {N : Nat} : ∀ (ls : List (Loop D S)) (d : D), o.dim d ≤ N → (∀ l ∈ ls, o.dim l.dom ≤ N) →
    o.dim (unionDom o d ls) ≤ N
  | [], _, h, _ => h
  | l :: ls, d, h, hls => by
    rw [unionDom]
    refine unionDom_small ls _ ?_ (fun a ha => hls a (by simp [ha]))
    have := K.dim_union d l.dom
    have := hls l (by simp)
    omega

theorem bounding_small {opt : Options} (d : D) : o.dim (boundingDomain o opt d) ≤ o.dim d := by
  unfold boundingDomain
  split
  · exact K.dim_simpleConvex d
  · exact K.dim_convex d

theorem mergeSplit_small {N : Nat} {opt : Options} {t : D} {inner : List (Loop D S)} (ht : o.dim t ≤ N)
    (hin : ∀ i ∈ inner, o.dim i.dom ≤ N) : ∀ (n : Nat) (s : D) (res out : List (Loop D S)), o.dim s ≤ N →
    (∀ q ∈ res, Small o N q) → mergeSplit o opt t inner n s res = some out → ∀ q ∈ out, Small o N q
  | 0, _, _, _, _, _, h => by simp [mergeSplit] at h
  | n + 1, s, res, out, hs, hres, h => by
    rw [mergeSplit] at h
    have hadd : ∀ d, o.dim d ≤ N → Small o N (Loop.mk (boundingDomain o opt (o.inter d t)) false none none inner) := by
      intro d hd
      refine ⟨?_, hin⟩
      have := K.dim_inter d t
      have := bounding_small K (opt := opt) (o.inter d t)
      simp only [Loop.dom_mk]
      omega
    split at h
    · dsimp only at h
      split at h
      · obtain rfl := Option.some.inj h
        exact hres
      · obtain rfl := Option.some.inj h
        intro q hq
        rcases List.mem_cons.1 hq with rfl | hq
        · exact hadd s hs
        · exact hres q hq
    · have hc := K.dim_cut s
      refine mergeSplit_small ht hin n _ _ out (by omega) (fun q hq => ?_) h
      split at hq
      · exact hres q hq
      · rcases List.mem_cons.1 hq with rfl | hq
        · exact hadd _ (by omega)
        · exact hres q hq

theorem step3_small {N n : Nat} {c : Ctx} {L s : Nat} {first : Int} {ls : List (Loop D S)}
    {r : List (Loop D S) × Bool × Bool} (h1 : ∀ l ∈ ls, Small o N l) (h : step3 o n c L s first ls = some r) :
    ∀ q ∈ r.1, Small o N q := by
  have hflat : ∀ i ∈ ls.flatMap Loop.inner, o.dim i.dom ≤ N := by
    intro i hi
    obtain ⟨l, hl, hi⟩ := List.mem_flatMap.1 hi
    exact (h1 l hl).2 i hi
  unfold step3 at h
  split at h
  · obtain rfl := Option.some.inj h
    dsimp only
    cases ls with
    | nil => simp [constant]
    | cons l ls =>
      intro q hq
      rw [constant, List.mem_singleton] at hq
      subst hq
      refine ⟨?_, hflat⟩
      have := unionDom_small K ls l.dom (h1 l (by simp)).1 (fun a ha => (h1 a (by simp [ha])).1)
      have := K.dim_simpleConvex (unionDom o l.dom ls)
      simp only [Loop.dom_mk]
      omega
  · split at h
    · obtain ⟨a, ha, rfl⟩ := Option.map_eq_some_iff.1 h
      dsimp only
      cases ls with
      | nil =>
        rw [merge] at ha
        obtain rfl := Option.some.inj ha
        simp
      | cons l ls =>
        have hu := unionDom_small K ls l.dom (h1 l (by simp)).1 (fun a ha => (h1 a (by simp [ha])).1)
        rw [merge] at ha
        split at ha
        · obtain rfl := Option.some.inj ha
          intro q hq
          rw [List.mem_singleton] at hq
          subst hq
          exact h1 q (by simp)
        · dsimp only at ha
          split at ha
          · refine mergeSplit_small K hu hflat _ _ _ _ ?_ (by simp) ha
            have := K.dim_splitter (unionDom o l.dom ls) L
            omega
          · obtain rfl := Option.some.inj ha
            intro q hq
            rw [List.mem_singleton] at hq
            subst hq
            refine ⟨?_, hflat⟩
            have := bounding_small K (opt := c.opt) (unionDom o l.dom ls)
            simp only [Loop.dom_mk]
            omega
    · obtain ⟨a, ha, rfl⟩ := Option.map_eq_some_iff.1 h
      exact separate_small K h1 ha

theorem restrict_small {N : Nat} {l m : Loop D S} {ctx : D} (h1 : o.dim l.dom ≤ N) (h2 : o.dim ctx ≤ N)
    (h : restrict o l ctx = some m) : o.dim m.dom ≤ N := by
  unfold restrict at h
  dsimp only at h
  obtain ⟨_, h⟩ := Option.ite_none_left_eq_some.1 h
  obtain rfl := Option.some.inj h
  simp only [Loop.dom_mk]
  split
  · have := K.dim_inter (o.extend ctx (o.dim l.dom)) l.dom
    have := K.dim_extend ctx (o.dim l.dom)
    omega
  · have := K.dim_inter ctx l.dom
    omega

theorem restrictAll_small {N : Nat} {ls : List (Loop D S)} {ctx : D} (h1 : ∀ l ∈ ls, o.dim l.dom ≤ N)
    (h2 : o.dim ctx ≤ N) : ∀ m ∈ restrictAll o ls ctx, o.dim m.dom ≤ N := by
  intro m hm
  obtain ⟨l, hl, hm⟩ := List.mem_filterMap.1 hm
  exact restrict_small K (h1 l hl) h2 hm

/-- The inner loops of the loops to recurse on. -/
theorem step3b_small {N : Nat} {c : Ctx} {L s : Nat} {sep : Bool} {ls r : List (Loop D S)}
    (h1 : ∀ l ∈ ls, Small o N l) (h : step3b o c L s sep ls = some r) : ∀ q ∈ r, ∀ i ∈ q.inner, o.dim i.dom ≤ N := by
  unfold step3b at h
  split at h
  · exact absurd h (by simp)
  · rename_i so hso
    have hsub : ∀ q ∈ so, q ∈ ls := by
      unfold Loop.sort at hso
      split at hso
      · obtain rfl := Option.some.inj hso
        exact fun _ h => h
      · split at hso
        · obtain rfl := Option.some.inj hso
          exact fun _ h => h
        · split at hso
          · exact absurd hso (by simp)
          · obtain rfl := Option.some.inj hso
            intro q hq
            obtain ⟨i, _, hi⟩ := List.mem_filterMap.1 hq
            exact List.mem_of_getElem? hi
    have hri : ∀ q ∈ restrictInner o so, ∀ i ∈ q.inner, o.dim i.dom ≤ N := by
      intro q hq
      obtain ⟨l, hl, hq⟩ := List.mem_filterMap.1 hq
      split at hq
      · exact absurd hq (by simp)
      · obtain rfl := Option.some.inj hq
        have hl' := h1 l (hsub l hl)
        cases l
        exact restrictAll_small K hl'.2 hl'.1
    split at h
    · unfold specialize at h
      split at h
      · exact absurd h (by simp)
      · rename_i ds hds
        obtain rfl := Option.some.inj h
        intro q hq
        obtain ⟨hq, _⟩ := List.mem_filter.1 hq
        obtain ⟨d, hd, rfl⟩ := List.mem_map.1 hq
        have hin : (specializeOne o d).inner = d.inner := by
          cases d with
          | mk dd ot st b inner =>
            cases inner with
            | nil => rfl
            | cons i rest =>
              cases rest with
              | nil => simp only [specializeOne, Loop.inner_mk]; split <;> rfl
              | cons j rest => rfl
        rw [hin]
        obtain ⟨l, hl, g, hg, hdg⟩ := flatMapM_mem hds hd
        unfold decomposeOne at hg
        split at hg
        · obtain rfl := Option.some.inj hg
          rw [List.mem_singleton] at hdg
          subst hdg
          exact hri d hl
        · split at hg
          · exact absurd hg (by simp)
          · rename_i cs hcs
            obtain rfl := Option.some.inj hg
            obtain ⟨cc, hcc, rfl⟩ := List.mem_map.1 hdg
            unfold componentsOf at hcs
            split at hcs
            · exact absurd hcs (by simp)
            · obtain rfl := Option.some.inj hcs
              obtain ⟨tc, _, rfl⟩ := List.mem_map.1 hcc
              intro i hi
              obtain ⟨j, _, hj⟩ := List.mem_filterMap.1 hi
              exact hri l hl i (List.mem_of_getElem? hj)
    · obtain rfl := Option.some.inj h
      exact hri

/-! ### The recursion -/

omit K in
theorem recurseInner_ends {gen : Nat → List (Loop D S) → Option (List (Loop D S))} {L s nb : Nat} :
    ∀ (k : Nat) (ls : List (Loop D S)), ls.length ≤ k →
    (∀ g, (∀ l ∈ g, l ∈ ls) → g ≠ [] → (∀ l ∈ g, more o l L s nb = true) → Ends (fun n => gen n g)) →
    Ends (fun n => recurseInner o (gen n) L s nb k ls)
  | k, [], _, _ => by
    refine ⟨[], 0, fun n _ => ?_⟩
    cases k <;> rfl
  | 0, _ :: _, h, _ => by simp at h
  | k + 1, l :: ls, h, hg => by
    simp only [recurseInner]
    simp only [List.length_cons] at h
    by_cases hm : more o l L s nb = true
    · simp only [hm, if_true]
      have hsp : spanMore o L s nb (l :: ls) =
          (l :: (spanMore o L s nb ls).1, (spanMore o L s nb ls).2) := by
        unfold spanMore
        rw [List.span_eq_takeWhile_dropWhile, List.span_eq_takeWhile_dropWhile]
        simp [hm]
      have h2 : (spanMore o L s nb ls).2.Sublist ls := by
        unfold spanMore
        rw [List.span_eq_takeWhile_dropWhile]
        exact List.dropWhile_sublist _
      have h1 : (spanMore o L s nb ls).1.Sublist ls := by
        unfold spanMore
        rw [List.span_eq_takeWhile_dropWhile]
        exact List.takeWhile_sublist _
      rw [hsp]
      dsimp only
      obtain ⟨r, n₀, e0⟩ := hg (l :: (spanMore o L s nb ls).1) (fun a ha => by
        rcases List.mem_cons.1 ha with rfl | ha
        · simp
        · exact List.mem_cons_of_mem _ (h1.subset ha)) (by simp) (fun a ha => by
        rcases List.mem_cons.1 ha with rfl | ha
        · exact hm
        · unfold spanMore at ha
          rw [List.span_eq_takeWhile_dropWhile] at ha
          exact List.mem_takeWhile_imp (p := fun l => more o l L s nb) (x := a) ha)
      obtain ⟨t, n₁, e1⟩ := recurseInner_ends (gen := gen) k (spanMore o L s nb ls).2 (by have := h2.length_le; omega)
        (fun g h3 h4 h5 => hg g (fun a ha => List.mem_cons_of_mem _ (h2.subset (h3 a ha))) h4 h5)
      refine ⟨r ++ t, max n₀ n₁, fun n hn => ?_⟩
      have e0 := e0 n (by omega)
      have e1 := e1 n (by omega)
      dsimp only at e0 e1 ⊢
      rw [e0, e1]
    · simp only [hm]
      obtain ⟨t, n₁, e1⟩ := recurseInner_ends (gen := gen) k ls (by omega)
        (fun g h3 h4 h5 => hg g (fun a ha => List.mem_cons_of_mem _ (h3 a ha)) h4 h5)
      refine ⟨l :: t, n₁, fun n hn => ?_⟩
      have e1 := e1 n hn
      dsimp only at e1 ⊢
      rw [e1]
      rfl

omit K in
theorem recurseBelow_ends {c : Ctx} {gen : Nat → List (Loop D S) → D → Nat → Nat → Option (List (Loop D S))} {L s : Nat}
    {l : Loop D S}
    (hg : ∀ g d, (∀ i ∈ g, i ∈ l.inner) → g ≠ [] → (∀ i ∈ g, more o i (L + 1) s c.scaldims.length = true) →
      Ends (fun n => gen n g d (L + 1) s)) :
    Ends (fun n => recurseBelow o c (gen n) L s l) := by
  have hin : (if 0 < L ∧ c.opt.otl = true then loopOtl o L l else l).inner = l.inner := by
    cases l
    split <;> rfl
  unfold recurseBelow
  dsimp only
  generalize (if 0 < L ∧ c.opt.otl = true then loopOtl o L l else l) = l' at hin ⊢
  rw [hin]
  have key : ∀ d, Ends (fun n => match recurseInner o (fun ls => gen n ls d (L + 1) s) (L + 1) s c.scaldims.length
      l.inner.length l.inner with
      | none => none
      | some into => some (l'.setInner into)) := by
    intro d
    obtain ⟨t, n₀, e0⟩ := recurseInner_ends (o := o) (L := L + 1) (s := s) (nb := c.scaldims.length)
      (gen := fun n g => gen n g d (L + 1) s) l.inner.length l.inner (Nat.le_refl _) (fun g h1 h2 h3 => hg g _ h1 h2 h3)
    refine ⟨l'.setInner t, n₀, fun n hn => ?_⟩
    have e0 := e0 n hn
    dsimp only at e0 ⊢
    rw [e0]
  cases l'.stride with
  | none => exact key _
  | some st => exact key _

omit K in
theorem recurse_ends {c : Ctx} {gen : Nat → List (Loop D S) → D → Nat → Nat → Option (List (Loop D S))} {L s : Nat}
    {b : Bool} {ls : List (Loop D S)} (hu : c.opt.firstUnroll < 0)
    (hg : ∀ l ∈ ls, ∀ g d, (∀ i ∈ g, i ∈ l.inner) → (∃ i ∈ g, more o i (L + 1) s c.scaldims.length = true) →
      Ends (fun n => gen n g d (L + 1) s)) :
    Ends (fun n => recurse o c (gen n) b L s ls) := by
  refine flatMapM_ends ls (fun l hl => ?_)
  have hp : ∃ m, recursePrepare o c b L s l = some (.inl m) ∧ m.inner = l.inner := by
    unfold recursePrepare
    dsimp only
    rw [if_neg (by omega)]
    refine ⟨_, rfl, ?_⟩
    cases l with
    | mk d ot st bl inner =>
      split
      · simp only [loopStride]
        split
        · rfl
        · split
          · rfl
          · split <;> rfl
      · rfl
  obtain ⟨m, hm, hi⟩ := hp
  simp only [loopRecurse, hm, loopRecurseConst]
  refine Ends.map _ (recurseBelow_ends ?_)
  rw [hi]
  intro g d h1 h2 h3
  obtain ⟨i, hi⟩ := List.exists_mem_of_ne_nil _ h2
  exact hg l hl g d h1 ⟨i, hi, h3 i hi⟩

omit K in
theorem scalarLoop_ends {c : Ctx} {gen : Nat → List (Loop D S) → Option (List (Loop D S))} {L s s' : Nat} :
    ∀ (k : Nat) (ls : List (Loop D S)), ls.length ≤ k →
    (∀ g, (∀ l ∈ g, l ∈ ls) → (∀ l ∈ g, more o l L s' c.scaldims.length = true) → Ends (fun n => gen n g)) →
    Ends (fun n => scalarLoop o c (gen n) L s s' k ls)
  | k, [], _, _ => by
    refine ⟨[], 0, fun n _ => ?_⟩
    cases k <;> rfl
  | 0, _ :: _, h, _ => by simp at h
  | k + 1, l :: ls, h, hg => by
    simp only [scalarLoop]
    simp only [List.length_cons] at h
    have h2 : (scalarGroup o c L s s' l ls).2.Sublist ls := by
      unfold scalarGroup
      rw [List.span_eq_takeWhile_dropWhile]
      exact List.dropWhile_sublist _
    have h1 : (scalarGroup o c L s s' l ls).1.Sublist ls := by
      unfold scalarGroup
      rw [List.span_eq_takeWhile_dropWhile]
      exact List.takeWhile_sublist _
    obtain ⟨t, n₁, e1⟩ := scalarLoop_ends (gen := gen) k (scalarGroup o c L s s' l ls).2
      (by have := h2.length_le; omega) (fun g h3 h4 => hg g (fun a ha => List.mem_cons_of_mem _ (h2.subset (h3 a ha))) h4)
    by_cases hm : more o l L s' c.scaldims.length = true
    · simp only [hm, if_true]
      obtain ⟨r, n₀, e0⟩ := hg (l :: (scalarGroup o c L s s' l ls).1) (fun a ha => by
        rcases List.mem_cons.1 ha with rfl | ha
        · simp
        · exact List.mem_cons_of_mem _ (h1.subset ha)) (fun a ha => by
        rcases List.mem_cons.1 ha with rfl | ha
        · exact hm
        · unfold scalarGroup at ha
          rw [List.span_eq_takeWhile_dropWhile] at ha
          have := List.mem_takeWhile_imp ha
          rw [Bool.and_eq_true] at this
          exact this.1)
      refine ⟨r ++ t, max n₀ n₁, fun n hn => ?_⟩
      have e0 := e0 n (by omega)
      have e1 := e1 n (by omega)
      dsimp only at e0 e1 ⊢
      rw [e0, e1]
    · simp only [hm]
      refine ⟨match t with
        | [] => l :: (scalarGroup o c L s s' l ls).1
        | r :: rs => l :: r :: rs, n₁, fun n hn => ?_⟩
      have e1 := e1 n hn
      dsimp only at e1 ⊢
      rw [e1]
      cases t <;> rfl

omit K in
theorem constantCmpN_asymm {icmp : Int → Int → Int} (hc : Verif.Props.Expr.ICmpExact icmp) (L : Nat)
    (sd : List Bool) (a b : Nat → Int) : ∀ (n s : Nat), 0 < constantCmpN icmp L sd a b n s →
    ¬ 0 < constantCmpN icmp L sd b a n s
  | 0, _, h => by simp [constantCmpN] at h
  | n + 1, s, h => by
    rw [constantCmpN] at h ⊢
    have h1 := hc (a s) (b s)
    have h2 := hc (b s) (a s)
    split at h
    · rename_i hl
      rw [if_pos hl]
      split at h
      · rw [if_pos (by omega)]
        omega
      · rw [if_neg (by omega)]
        exact constantCmpN_asymm hc L sd a b n _ h
    · omega

theorem generateScalar_ends {c : Ctx} {gen : Nat → List (Loop D S) → Nat → Option (List (Loop D S))} {L s : Nat}
    {ls : List (Loop D S)}
    (hg : ∀ g, (∀ l ∈ g, l ∈ ls) →
      (∀ l ∈ g, more o l L (s + runLength c.scaldims (L + s - 1)) c.scaldims.length = true) →
      Ends (fun n => gen n g (s + runLength c.scaldims (L + s - 1)))) :
    Ends (fun n => generateScalar o c (gen n) L s ls) := by
  unfold generateScalar
  dsimp only
  obtain ⟨srt, hs⟩ := Verif.Props.ScalarSort.bubble_terminates
    (fun a b : Loop D S => scalarGt o.icmp L (isScal c.scaldims) s (scalOf a) (scalOf b))
    (fun x y h => by
      simp only [scalarGt, decide_eq_true_eq, decide_eq_false_iff_not, constantCmp, gt_iff_lt] at h ⊢
      exact constantCmpN_asymm K.icmp _ _ _ _ _ _ h)
    (ls.length * ls.length + 1) ls (by
      have := Verif.Props.ScalarSort.inversions_le
        (fun a b : Loop D S => scalarGt o.icmp L (isScal c.scaldims) s (scalOf a) (scalOf b)) ls
      omega)
  rw [hs]
  have hp := (Verif.Props.ScalarSort.bubble_spec _ _ _ _ hs).1
  exact scalarLoop_ends (gen := fun n g => gen n g (s + runLength c.scaldims (L + s - 1))) srt.length srt
    (Nat.le_refl _) (fun g h h' => hg g (fun l hl => hp.subset (h l hl)) h')

theorem generateGeneral_ends {c : Ctx} {gen : Nat → List (Loop D S) → D → Nat → Nat → Option (List (Loop D S))}
    {N L s : Nat} {ls : List (Loop D S)} (hu : c.opt.firstUnroll < 0) (hls : ∀ l ∈ ls, Small o N l)
    (hg : ∀ g d, (∀ i ∈ g, o.dim i.dom ≤ N) → (∃ i ∈ g, more o i (L + 1) s c.scaldims.length = true) →
      Ends (fun n => gen n g d (L + 1) s)) :
    Ends (fun n => generateGeneral o n c (gen n) L s ls) := by
  obtain ⟨⟨r3, sep, const⟩, n₀, e0⟩ := step3_ends K c L s (levels c.opt ls).1 ls
  have h3 := step3_small K hls (e0 n₀ (Nat.le_refl _))
  obtain ⟨r3b, hb⟩ := step3b_some K c L s sep r3
  have h3b := step3b_small K h3 hb
  have h4 : Ends (fun n => step4 o n c (gen n) L s (levels c.opt ls).2 const r3b) := by
    unfold step4
    split
    · exact recurse_ends hu (fun l hl g d h1 h2 => hg g d (fun i hi => h3b l hl i (h1 i hi)) h2)
    · refine flatMapM_ends r3b (fun l _ => ?_)
      obtain ⟨t, n₁, e1⟩ := nest_ends K l.inner l.dom (L + 1)
      refine ⟨[.mk l.dom false none none t], n₁, fun n hn => ?_⟩
      have e1 := e1 n hn
      dsimp only at e1 ⊢
      rw [nestBelow, e1]
  obtain ⟨r4, n₁, e1⟩ := h4
  obtain ⟨r5, n₂, e2⟩ := step5_ends K c L s (levels c.opt ls).1 (levels c.opt ls).2 r4
  refine ⟨r5, max n₀ (max n₁ n₂), fun n hn => ?_⟩
  have e0 := e0 n (by omega)
  have e1 := e1 n (by omega)
  have e2 := e2 n (by omega)
  dsimp only at e0 e1 e2 ⊢
  unfold generateGeneral
  dsimp only
  rw [e0]
  dsimp only
  rw [hb]
  dsimp only
  rw [e1]
  exact e2

theorem generateComponents_ends {c : Ctx} {gen : Nat → List (Loop D S) → D → Nat → Nat → Option (List (Loop D S))}
    {N L s : Nat} {ls : List (Loop D S)} (hu : c.opt.firstUnroll < 0) (hls : ∀ l ∈ ls, Small o N l)
    (hg : ∀ g d, (∀ i ∈ g, o.dim i.dom ≤ N) → (∃ i ∈ g, more o i (L + 1) s c.scaldims.length = true) →
      Ends (fun n => gen n g d (L + 1) s)) :
    Ends (fun n => generateComponents o n c (gen n) L s ls) := by
  unfold generateComponents
  split
  · exact generateGeneral_ends K hu hls hg
  · obtain ⟨cs, hcs⟩ := componentsOf_some (fun a b => innerFollows o a b L s c.scaldims) ls
    have hsub : ∀ g ∈ cs, ∀ l ∈ g, l ∈ ls := by
      unfold componentsOf at hcs
      split at hcs
      · exact absurd hcs (by simp)
      · obtain rfl := Option.some.inj hcs
        intro g hgm l hl
        obtain ⟨tc, _, rfl⟩ := List.mem_map.1 hgm
        obtain ⟨j, _, hj⟩ := List.mem_filterMap.1 hl
        exact List.mem_of_getElem? hj
    obtain ⟨r, n₀, e0⟩ := flatMapM_ends (f := fun n => generateGeneral o n c (gen n) L s) cs
      (fun g hgm => generateGeneral_ends K hu (fun l hl => hls l (hsub g hgm l hl)) hg)
    refine ⟨combine o r, n₀, fun n hn => ?_⟩
    have e0 := e0 n hn
    dsimp only at e0 ⊢
    rw [hcs]
    dsimp only
    rw [e0]

theorem generateRestricted_ends {c : Ctx} {N : Nat} (hu : c.opt.firstUnroll < 0) (hN : c.scaldims.length ≤ N) :
    ∀ (m L s : Nat), (N + 1 - L) + (N + 1 - s) ≤ m → L ≤ N → ∀ (orStop : Bool) (ls : List (Loop D S)) (ctx : D),
    (∀ l ∈ ls, o.dim l.dom ≤ N) → Ends (fun n => generateRestricted o c n orStop ls ctx L s) := by
  intro m
  induction m with
  | zero => intro L s h hL; omega
  | succ m ih =>
    intro L s hm hL orStop ls ctx hls
    refine Ends.succ ?_
    simp only [generateRestricted]
    split
    · exact Ends.const _
    · split
      · rename_i hc
        simp only [levelIsConstant, Bool.and_eq_true, decide_eq_true_eq] at hc
        have hlen : (isScal c.scaldims).length = c.scaldims.length := by simp [isScal]
        have hpos : 0 < runLength c.scaldims (L + s - 1) := by
          have h3 := hc.2
          simp only [isScal, List.getD_eq_getElem?_getD, List.getElem?_map] at h3
          unfold runLength
          rw [List.getD_eq_getElem?_getD]
          cases e : c.scaldims[L + s - 1]? with
          | none => rw [e] at h3; simp at h3
          | some v => rw [e] at h3; simp at h3; simp; omega
        rw [hlen] at hc
        exact generateScalar_ends K (gen := fun n g sc => generateRestricted o c n false g ctx L sc)
          (fun g hg _ => ih L _ (by omega) hL false g ctx (fun l hl => hls l (hg l hl)))
      · refine generateComponents_ends K (N := N) (gen := fun n g d lev sc => generateRestricted o c n true g d lev sc) hu
          ?_ ?_
        · intro l hl
          obtain ⟨b, hb, rfl⟩ := List.mem_map.1 hl
          have hb' := hls b hb
          refine ⟨?_, ?_⟩
          · unfold project
            simp only [Loop.dom_mk]
            split
            · exact hb'
            · have := K.dim_project b.dom L
              omega
          · intro i hi
            simp only [project, Loop.inner_mk, List.mem_singleton] at hi
            subst hi
            exact hb'
        · intro g d h1 ⟨i, hi, hmore⟩
          have h2 := h1 i hi
          simp only [more, Bool.or_eq_true, decide_eq_true_eq] at hmore
          exact ih (L + 1) s (by omega) (by omega) true g d h1

/-! ### Simplification -/

omit K in
mutual
/-- The number of nested levels of a loop. -/
def height : Loop D S → Nat
  | .mk _ _ _ _ inner => heights inner + 1
/-- The number of nested levels of a list of loops. -/
def heights : List (Loop D S) → Nat
  | [] => 0
  | l :: ls => max (height l) (heights ls)
end

omit K in
theorem height_le {l : Loop D S} : ∀ {ls : List (Loop D S)}, l ∈ ls → heights l.inner + 1 ≤ heights ls
  | [], h => absurd h (by simp)
  | m :: ls, h => by
    rw [heights]
    rcases List.mem_cons.1 h with rfl | h
    · cases l
      rw [height]
      exact Nat.le_max_left _ _
    · exact (height_le h).trans (Nat.le_max_right _ _)

omit K in
theorem splitRest_same {rec_ : Loop D S → Option (List (Loop D S))} {b : Option Block} {inner : List (Loop D S)}
    (hrec : ∀ l r, l.inner = inner → rec_ l = some r → ∀ q ∈ r, q.inner = inner) :
    ∀ (k : Nat) (rest seen : D) (r : List (Loop D S)), splitRest o rec_ b inner k rest seen = some r →
    ∀ q ∈ r, q.inner = inner
  | 0, _, _, _, h => by simp [splitRest] at h
  | k + 1, rest, seen, r, h => by
    rw [splitRest] at h
    split at h
    · obtain rfl := Option.some.inj h
      simp
    · split at h
      · exact splitRest_same hrec k _ _ r h
      · split at h
        · exact absurd h (by simp)
        · rename_i pieces hp
          have hpieces : ∀ q ∈ pieces, q.inner = inner := by
            split at hp
            · obtain rfl := Option.some.inj hp
              intro q hq
              rw [List.mem_singleton] at hq
              subst hq
              rfl
            · exact hrec _ _ rfl hp
          split at h
          · obtain rfl := Option.some.inj h
            exact hpieces
          · split at h
            · exact absurd h (by simp)
            · rename_i more hm
              obtain rfl := Option.some.inj h
              intro q hq
              rcases List.mem_append.1 hq with hq | hq
              · exact hpieces q hq
              · exact splitRest_same hrec k _ _ more hm q hq

omit K in
theorem addDisjoint_same : ∀ (n : Nat) (l : Loop D S) (r : List (Loop D S)), addDisjoint o n l = some r →
    ∀ q ∈ r, q.inner = l.inner
  | 0, _, _, h => by simp [addDisjoint] at h
  | n + 1, l, r, h => by
    rw [addDisjoint] at h
    split at h
    · obtain rfl := Option.some.inj h
      intro q hq
      rw [List.mem_singleton] at hq
      rw [hq]
    · split at h
      · exact absurd h (by simp)
      · rename_i more hm
        obtain rfl := Option.some.inj h
        intro q hq
        rcases List.mem_cons.1 hq with rfl | hq
        · rfl
        · exact splitRest_same (fun l' r h1 h2 q hq => (addDisjoint_same n l' r h2 q hq).trans h1) n _ _ more hm q hq

theorem simplifyPrepare_ends (ls : List (Loop D S)) : Ends (fun n => simplifyPrepare o n ls) := by
  unfold simplifyPrepare
  dsimp only
  split
  · exact Ends.const _
  · exact disjoint_ends K _

omit K in
theorem simplifyPrepare_same {n : Nat} {ls r : List (Loop D S)} (h : simplifyPrepare o n ls = some r) :
    ∀ q ∈ r, ∃ l ∈ ls, q.inner = l.inner := by
  unfold simplifyPrepare at h
  dsimp only at h
  have h1 : ∀ q ∈ ls.map (fun l => if o.isConvex l.dom then l else l.setDom (o.simplifyUnion l.dom)),
      ∃ l ∈ ls, q.inner = l.inner := by
    intro q hq
    obtain ⟨l, hl, rfl⟩ := List.mem_map.1 hq
    refine ⟨l, hl, ?_⟩
    cases l
    split <;> rfl
  split at h
  · obtain rfl := Option.some.inj h
    exact h1
  · intro q hq
    obtain ⟨a, ha, bs, hbs, hqb⟩ := flatMapM_mem h hq
    obtain ⟨l, hl, e⟩ := h1 a ha
    exact ⟨l, hl, (addDisjoint_same _ _ _ hbs q hqb).trans e⟩

theorem simplify_ends : ∀ (m : Nat) (ls : List (Loop D S)), heights ls ≤ m → ∀ ctx,
    Ends (fun n => simplify o n ls ctx) := by
  intro m
  induction m with
  | zero =>
    intro ls h ctx
    cases ls with
    | nil => exact Ends.succ (Ends.const [])
    | cons l ls => have := height_le (l := l) (ls := l :: ls) (by simp); omega
  | succ m ih =>
    intro ls h ctx
    refine Ends.succ ?_
    simp only [simplify]
    obtain ⟨ds, n₀, e0⟩ := simplifyPrepare_ends K ls
    have hds := simplifyPrepare_same (e0 n₀ (Nat.le_refl _))
    obtain ⟨r, n₁, e1⟩ := flatMapM_ends (f := fun n l => (loopSimplify o (simplify o n) l ctx).map Option.toList) ds (by
      intro d hd
      refine Ends.map _ ?_
      obtain ⟨l, hl, e⟩ := hds d hd
      have hle := height_le hl
      unfold loopSimplify
      dsimp only
      split
      · exact Ends.const _
      · obtain ⟨t, n₂, e2⟩ := ih d.inner (by rw [e]; omega) (o.inter d.dom (o.extend ctx (o.dim d.dom)))
        refine ⟨if t.isEmpty = true ∧ d.block = none then none
          else some (.mk (o.gist d.dom (o.extend ctx (o.dim d.dom))) d.otl d.stride d.block t), n₂, fun n hn => ?_⟩
        have e2 := e2 n hn
        dsimp only at e2 ⊢
        rw [e2]
        dsimp only
        split <;> rfl)
    refine ⟨r, max n₀ n₁, fun n hn => ?_⟩
    have e0 := e0 n (by omega)
    have e1 := e1 n (by omega)
    dsimp only at e0 e1 ⊢
    rw [e0]
    exact e1

/-- **C70**.  Code generation ends for every list of statements, every context and all options but `-first-unroll`, and
    so does the simplification of its result. -/
theorem C70_terminates_partial {c : Ctx} (hu : c.opt.firstUnroll < 0) (B : List (Loop D S)) (ctx ctx' : D) (L s : Nat) :
    Ends (fun n => generate o c n B ctx L s) ∧ ∀ T : List (Loop D S), Ends (fun n => simplify o n T ctx') := by
  refine ⟨?_, fun T => simplify_ends K _ T (Nat.le_refl _) ctx'⟩
  unfold generate
  split
  · exact Ends.const _
  · let N := (B.map (fun b => o.dim b.dom)).sum + o.dim ctx + c.scaldims.length + L
    refine generateRestricted_ends K (N := N) hu (by omega) _ L s (Nat.le_refl _) (by omega) true _ ctx ?_
    refine restrictAll_small K (fun b hb => ?_) (by omega)
    have := List.single_le_sum (l := B.map (fun b => o.dim b.dom)) (by simp) _ (List.mem_map_of_mem hb)
    omega

omit K in
theorem runLength_pos {scaldims : List Nat} {L s : Nat} (hc : levelIsConstant L s (isScal scaldims) = true) :
    0 < L ∧ L + s ≤ scaldims.length ∧ 0 < runLength scaldims (L + s - 1) := by
  simp only [levelIsConstant, Bool.and_eq_true, decide_eq_true_eq] at hc
  have hlen : (isScal scaldims).length = scaldims.length := by simp [isScal]
  rw [hlen] at hc
  refine ⟨hc.1.1, hc.1.2, ?_⟩
  have h3 := hc.2
  simp only [isScal, List.getD_eq_getElem?_getD, List.getElem?_map] at h3
  unfold runLength
  rw [List.getD_eq_getElem?_getD]
  cases e : scaldims[L + s - 1]? with
  | none => rw [e] at h3; simp at h3
  | some v => rw [e] at h3; simp at h3; simp; omega

omit K in
theorem followsFrom_ends (l₁ l₂ : Loop D S) (scaldims : List Nat) (dflt : Bool) : ∀ (n m L s : Nat),
    (o.dim l₁.dom + 1 - L) + (scaldims.length - s) < n → (o.dim l₁.dom + 1 - L) + (scaldims.length - s) < m →
    followsFrom o l₁ l₂ scaldims dflt n L s = followsFrom o l₁ l₂ scaldims dflt m L s
  | 0, _, _, _, h, _ => by omega
  | _, 0, _, _, _, h => by omega
  | n + 1, m + 1, L, s, h1, h2 => by
    rw [followsFrom, followsFrom]
    by_cases hc : levelIsConstant L s (isScal scaldims) = true
    · obtain ⟨c1, c2, c3⟩ := runLength_pos hc
      rw [if_pos hc, if_pos hc]
      dsimp only
      rw [followsFrom_ends l₁ l₂ scaldims dflt n m L _ (by omega) (by omega)]
    · rw [if_neg hc, if_neg hc]
      by_cases hd : L ≤ o.dim l₁.dom ∧ L ≤ o.dim l₂.dom
      · rw [if_pos hd, if_pos hd]
        dsimp only
        rw [followsFrom_ends l₁ l₂ scaldims dflt n m (L + 1) s (by omega) (by omega)]
      · rw [if_neg hd, if_neg hd]

omit K in
/-- The comparison of two loops ends: more rounds of its loop than the model allows do not change the answer. -/
theorem C70_follows (l₁ l₂ : Loop D S) (scaldims : List Nat) (dflt : Bool) (L s : Nat) (n : Nat)
    (hn : scaldims.length + o.dim l₁.dom + o.dim l₂.dom + 2 ≤ n) :
    followsFrom o l₁ l₂ scaldims dflt n L s = follows o l₁ l₂ L s scaldims dflt :=
  followsFrom_ends l₁ l₂ scaldims dflt n _ L s (by omega) (by omega)

end

/-! ## Examples -/

section
open Verif.BoxDom Verif.Props.Generate

/-- The concrete domains, with a sort that gives up and keeps the order where there is none. -/
def opsT : DomOps BD (Int × Int) Unit :=
  { ops with sort := fun ds L => some ((ops.sort ds L).getD (List.range ds.length)) }

theorem lift_length (d : BD) (n : Nat) : (d.lift n).parts.length = d.parts.length := by
  unfold BD.lift
  split <;> simp

theorem lift_dim (d : BD) (n : Nat) : (d.lift n).dim = n := by
  unfold BD.lift
  split
  · rename_i h
    exact h.symm
  · rfl

theorem diff_length (a b : BD) : (ops.diff a b).parts.length ≤ a.parts.length := by
  show ((((a.lift (max a.dim b.dim)).parts.map _).filter _).length : Nat) ≤ _
  refine (List.length_filter_le _ _).trans ?_
  rw [List.length_map, lift_length]

/-- The concrete domains meet the assumptions.  Their differences have no more parts than the minuend, so that nothing
    has to be known about overlaps. -/
theorem lawsT : TermLaws opsT (fun d => d.parts.length) (fun _ => True) (fun _ _ => True) where
  cut_empty d h := by
    show (d.parts.drop 1).length < d.parts.length
    cases e : d.parts with
    | nil =>
      have : ops.isEmpty d = true := by simp [ops, BD.all, e]
      have h' : ops.isEmpty d = false := h
      rw [this] at h'
      cases h'
    | cons p ps => simp
  cut_union d h := by
    show (d.parts.drop 1).length < d.parts.length
    have h' : decide (d.parts.length ≤ 1) = false := h
    simp only [decide_eq_false_iff_not] at h'
    simp only [List.length_drop]
    omega
  cutConvex d := by
    show decide ((d.parts.take 1).length ≤ 1) = true
    simp
  diff_parts _ _ _ := trivial
  diff_apart a b h _ := by
    show decide ((ops.diff a b).parts.length ≤ 1) = true
    have h' : decide (a.parts.length ≤ 1) = true := h
    simp only [decide_eq_true_eq] at h' ⊢
    exact (diff_length a b).trans h'
  simplifyUnion _ _ := trivial
  cut_parts _ _ := ⟨trivial, trivial⟩
  cut_apart _ _ _ := ⟨trivial, trivial⟩
  union_apart _ _ _ _ _ := trivial
  sort ds L := ⟨_, rfl⟩
  icmp := Verif.Props.Expr.gmpCmp_exact
  dim_cut d := ⟨Nat.le_refl _, Nat.le_refl _⟩
  dim_simplifyUnion d := Nat.le_refl _
  dim_inter a b := by
    show (a.lift (max a.dim b.dim)).dim ≤ _
    rw [lift_dim]
    exact Nat.le_refl _
  dim_union a b := Nat.le_refl _
  dim_diff a b := by
    show (a.lift (max a.dim b.dim)).dim ≤ _
    rw [lift_dim]
    exact Nat.le_refl _
  dim_empty d := Nat.le_refl _
  dim_extend d n := by
    show (if d.dim ≤ n then d.lift n else d).dim ≤ max d.dim n
    split
    · rw [lift_dim]
      exact Nat.le_max_right _ _
    · exact Nat.le_max_left _ _
  dim_project d n := Nat.le_max_right _ _
  dim_convex d := Nat.le_refl _
  dim_simpleConvex d := Nat.le_refl _
  dim_splitter d L := Nat.le_refl _

/-- A scalar dimension, `-backtrack` and separation. -/
example : Ends (fun n => generate opsT exC' n exB' (box 0 [[]]) 0 0) :=
  (C70_terminates_partial lawsT (by decide) exB' (box 0 [[]]) (box 0 [[]]) 0 0).1

example : (generate opsT exC' 20 exB' (box 0 [[]]) 0 0).isSome = true ∧
    (generate opsT exC' 2 exB' (box 0 [[]]) 0 0).isSome = false := by decide +kernel

end
end Verif.Props.Terminates
