import Verif.Lemmas.LoopSem
import Verif.Props.Separate
import Verif.Props.Expr

/-!
# Assumptions and invariants for the generation of loop lists

`GenLaws` is what is assumed about the operations of `source/isl/domain.c`.  Points are pairs of a
value of the parameters and a vector of iterators.
-/

namespace Verif.Gen

open Verif.Loop Verif.Props.Separate

variable {D S C Par : Type}

/-- Two points agree on the iterators outside of level `L`. -/
def Agree (L : Nat) (x y : Pt) : Prop := ∀ i, i + 1 < L → x i = y i

theorem Agree.refl (L : Nat) (x : Pt) : Agree L x x := fun _ _ => rfl
theorem Agree.symm {L : Nat} {x y : Pt} (h : Agree L x y) : Agree L y x := fun i hi => (h i hi).symm
theorem Agree.trans {L : Nat} {x y z : Pt} (h : Agree L x y) (k : Agree L y z) : Agree L x z :=
  fun i hi => (h i hi).trans (k i hi)
theorem Agree.mono {L M : Nat} {x y : Pt} (h : Agree M x y) (k : L ≤ M) : Agree L x y :=
  fun i hi => h i (by omega)

/-- What is assumed about the domain operations, beyond `SetLaws`.  All are facts about sets, for every
value of the parameters.  `project` and the hulls may return larger sets; `isEmpty` is exact; `sort`
and `follows` are sound (a `sort` that returns an unsound order has to be modelled as not returning,
see C19). -/
structure GenLaws (o : DomOps D S C) (mem : D → Par × Pt → Prop) : Prop extends SetLaws o mem where
  isEmpty_of : ∀ d, (∀ px, ¬ mem d px) → o.isEmpty d = true
  congr : ∀ d p x y, (∀ i, i < o.dim d → x i = y i) → mem d (p, x) → mem d (p, y)
  dim_simplifyUnion : ∀ d, o.dim (o.simplifyUnion d) = o.dim d
  dim_cut : ∀ d, o.dim (o.cutFirst d).1 = o.dim d ∧ o.dim (o.cutFirst d).2 = o.dim d
  dim_inter : ∀ a b, o.dim a = o.dim b → o.dim (o.inter a b) = o.dim b
  dim_union : ∀ a b, o.dim a = o.dim b → o.dim (o.union a b) = o.dim b
  dim_diff : ∀ a b, o.dim a = o.dim b → o.dim (o.diff a b) = o.dim b
  dim_empty : ∀ d, o.dim (o.empty d) = o.dim d
  dim_lazyEqual : ∀ a b, o.lazyEqual a b = true → o.dim a = o.dim b
  dim_extend : ∀ d n, o.dim d ≤ n → o.dim (o.extend d n) = n
  extend : ∀ d n px, o.dim d ≤ n → (mem (o.extend d n) px ↔ mem d px)
  dim_project : ∀ d l, l ≤ o.dim d → o.dim (o.project d l) = l
  project : ∀ d l px, l ≤ o.dim d → mem d px → mem (o.project d l) px
  dim_convex : ∀ d, o.dim (o.convex d) = o.dim d
  convex : ∀ d px, mem d px → mem (o.convex d) px
  dim_simpleConvex : ∀ d, o.dim (o.simpleConvex d) = o.dim d
  simpleConvex : ∀ d px, mem d px → mem (o.simpleConvex d) px
  isConvex_convex : ∀ d, o.isConvex (o.convex d) = true
  isConvex_simpleConvex : ∀ d, o.isConvex (o.simpleConvex d) = true
  splitter : ∃ Sp : D → Prop, (∀ d L, Sp (o.boundSplitter d L)) ∧
    (∀ d L px, mem (o.boundSplitter d L) px) ∧
    (∀ d L, o.dim (o.boundSplitter d L) = o.dim d) ∧
    ∀ s, Sp s → (o.isConvex s = false → Sp (o.cutFirst s).2 ∧
        ∀ px, ¬ (mem (o.cutFirst s).1 px ∧ mem (o.cutFirst s).2 px)) ∧
      (∀ t px opt, mem (boundingDomain o opt (o.inter (o.cutFirst s).1 t)) px →
        mem (o.cutFirst s).1 px) ∧
      (o.isConvex s = true → ∀ t px opt, mem (boundingDomain o opt (o.inter s t)) px → mem s px)
  sort : ∀ ds L perm, 0 < L → o.sort ds L = some perm → perm.Perm (List.range ds.length) ∧
    perm.Pairwise (fun i j => ∀ a b, ds[i]? = some a → ds[j]? = some b → ∀ p x y,
      mem a (p, x) → mem b (p, y) → Agree L x y → x (L - 1) ≤ y (L - 1))
  follows_le : ∀ a b L, 0 < L → o.follows a b L ≤ 0 → ∀ p x y, mem a (p, x) → mem b (p, y) →
    Agree L x y → x (L - 1) ≤ y (L - 1)
  follows_lt : ∀ a b L, 0 < L → o.follows a b L < 0 → ∀ p x y, mem a (p, x) → mem b (p, y) →
    Agree L x y → x (L - 1) < y (L - 1)
  dim_fixedOffset : ∀ d L c k, o.dim (o.fixedOffset d L c k) = o.dim d
  unroll : ∀ d L n c, 0 < L → o.isConvex d = true → o.dim d = L →
    o.canUnroll d L = some (n, c) → ∃ lo : Par → Pt → Int,
    (∀ p x y, Agree L x y → lo p x = lo p y) ∧
    (∀ p x, mem d (p, x) → lo p x ≤ x (L - 1) ∧ x (L - 1) < lo p x + n) ∧
    ∀ k p x, mem (o.fixedOffset d L c k) (p, x) ↔ mem d (p, x) ∧ x (L - 1) = lo p x + k
  icmp : Verif.Props.Expr.ICmpExact o.icmp

variable {o : DomOps D S C} {mem : D → Par × Pt → Prop}

theorem GenLaws.congr_iff (G : GenLaws o mem) {d : D} {p : Par} {x y : Pt}
    (h : ∀ i, i < o.dim d → x i = y i) : mem d (p, x) ↔ mem d (p, y) :=
  ⟨G.congr d p x y h, G.congr d p y x (fun i hi => (h i hi).symm)⟩

/-- The meaning of loop lists for a value of the parameters; `ok L s` are the points whose iterator of
level `L` is admitted by the stride `s`. -/
def sem (o : DomOps D S C) (mem : D → Par × Pt → Prop) (ok : Nat → S → Par × Pt → Prop) (p : Par) :
    Sem D S :=
  ⟨o.dim, fun d x => mem d (p, x), fun L s x => ok L s (p, x)⟩

/-- Block and dimension of the loops of a list: what stays the same while domains are restricted. -/
def keys (o : DomOps D S C) (B : List (Loop D S)) : List (Option Block × Nat) :=
  B.map (fun b => (b.block, o.dim b.dom))

theorem keys_append (a b : List (Loop D S)) : keys o (a ++ b) = keys o a ++ keys o b := by
  simp [keys]

/-- The assumptions about the statements (their blocks and dimensions) on which the order of the
generated code rests; `flags` are the scalar positions of the scattering and `ord` is the order of the
statements in the input. -/
structure KOK (flags : List Bool) (ord : Block → Block → Prop) (K : List (Option Block × Nat)) :
    Prop where
  block : ∀ k ∈ K, k.1 ≠ none
  ord : K.Pairwise (fun a b => ∀ u v, a.1 = some u → b.1 = some v → ord u v)
  uni : ∀ a b c, [a, b, c].Sublist K → a.2 ≤ b.2 ∨ c.2 ≤ b.2
  dims : ∀ k ∈ K, flags.count false ≤ k.2
  last : flags.getLast? = some true → K.Pairwise (fun a b => b.2 ≤ a.2)

theorem KOK.sublist {flags : List Bool} {ord : Block → Block → Prop}
    {K K' : List (Option Block × Nat)} (h : KOK flags ord K) (hs : K'.Sublist K) : KOK flags ord K' :=
  ⟨fun k hk => h.block k (hs.subset hk), h.ord.sublist hs,
    fun a b c habc => h.uni a b c (habc.trans hs), fun k hk => h.dims k (hs.subset hk),
    fun hl => (h.last hl).sublist hs⟩

/-- `e` is the instance of the loop `i` at the point `x`. -/
def At (o : DomOps D S C) (i : Loop D S) (x : Pt) (e : Inst) : Prop :=
  i.block = some e.block ∧ e.args = argsOf (o.dim i.dom) x

/-- `e` is an instance of one of the loops `B` at a point that agrees with `x` outside of level
`L`. -/
def InstOf (o : DomOps D S C) (mem : D → Par × Pt → Prop) (B : List (Loop D S)) (p : Par) (L : Nat)
    (x : Pt) (e : Inst) : Prop :=
  ∃ b ∈ B, ∃ y, Agree L x y ∧ mem b.dom (p, y) ∧ At o b y e

theorem argsOf_length (n : Nat) (x : Pt) : (argsOf n x).length = n := by simp [argsOf]

theorem argsOf_getD {n i : Nat} (x : Pt) (h : i < n) : (argsOf n x).getD i 0 = x i := by
  simp [argsOf, h]

theorem argsOf_congr {n : Nat} {x y : Pt} (h : ∀ i, i < n → x i = y i) : argsOf n x = argsOf n y := by
  apply List.map_congr_left
  intro i hi
  exact h i (List.mem_range.1 hi)

/-- An executed instance has the values of the outer iterators at which it is executed. -/
theorem hasLoops_args {ok : Nat → S → Par × Pt → Prop} {p : Par} :
    ∀ (ls : List (Loop D S)) (L : Nat) (x : Pt) (e : Inst),
    hasLoops (sem o mem ok p) L x ls e → ∀ i, i + 1 < L → i < e.args.length → e.args.getD i 0 = x i := by
  intro ls
  refine Loop.rec_1 (D := D) (S := S)
    (motive_1 := fun l => ∀ (L : Nat) (x : Pt) (e : Inst),
      hasLoop (sem o mem ok p) L x l e → ∀ i, i + 1 < L → i < e.args.length → e.args.getD i 0 = x i)
    (motive_2 := fun ls => ∀ (L : Nat) (x : Pt) (e : Inst),
      hasLoops (sem o mem ok p) L x ls e → ∀ i, i + 1 < L → i < e.args.length → e.args.getD i 0 = x i)
    ?_ ?_ ?_ ls
  · intro d ot st b inner ih L x e h i hi hl
    rw [hasLoop_mk] at h
    obtain ⟨y, hv, h⟩ := h
    have hy : y i = x i := by
      unfold Visits at hv
      split at hv
      · obtain ⟨⟨v, rfl⟩, _⟩ := hv
        exact setAt_other (by omega)
      · rw [hv.1]
    rcases h with ⟨_, h⟩ | h
    · rw [h] at hl ⊢
      rw [argsOf_length] at hl
      rw [argsOf_getD _ hl, hy]
    · rw [ih (L + 1) y e h i (by omega) hl, hy]
  · intro L x e h
    simp [hasLoops] at h
  · intro l ls ih1 ih2 L x e h
    rw [hasLoops] at h
    rcases h with h | h
    · exact ih1 L x e h
    · exact ih2 L x e h

end Verif.Gen
