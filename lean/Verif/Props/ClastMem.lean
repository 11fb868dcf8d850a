import Verif.Model.ClastMem
import Mathlib.Data.List.Nodup
import Mathlib.Data.List.Perm.Basic

/-!
# C88: expressions of a clast are copied and freed without sharing
-/

namespace Verif.Props.ClastMem
open Verif.Clast Verif.Callable Verif.ClastMem

/-! ## Specification -/

mutual
/-- The expression without addresses. -/
def shape : HExpr → Expr
  | .name _ s => .name s
  | .cst _ c => .cst c
  | .term _ c v => .term c (shape v)
  | .bin _ t l k => .bin t (shape l) k
  | .red _ t es => .red t (shapes es)
def shapes : List HExpr → List Expr
  | [] => []
  | e :: es => shape e :: shapes es
end

mutual
/-- The addresses of the nodes, one for each way to reach it. -/
def ids : HExpr → List Nat
  | .name a _ => [a]
  | .cst a _ => [a]
  | .term a _ v => ids v ++ [a]
  | .bin a _ l _ => ids l ++ [a]
  | .red a _ es => idsL es ++ [a]
def idsL : List HExpr → List Nat
  | [] => []
  | e :: es => ids e ++ idsL es
end

def idsO : Option HExpr → List Nat
  | none => []
  | some e => ids e

/-! ## Freeing -/

def freeSeq : List Nat → List Nat → Option (List Nat)
  | [], m => some m
  | a :: as, m => if a ∈ m then freeSeq as (m.erase a) else none

theorem freeSeq_append : ∀ (as bs m : List Nat), freeSeq (as ++ bs) m = (freeSeq as m).bind (freeSeq bs)
  | [], _, _ => rfl
  | a :: as, bs, m => by
    simp only [List.cons_append, freeSeq]
    split
    · exact freeSeq_append as bs _
    · rfl

theorem freeSeq_one (a : Nat) : freeSeq [a] = release a := by
  funext m; simp [freeSeq, release]

theorem freeSeq_dead {a : Nat} : ∀ (as m : List Nat), a ∈ as → a ∉ m → freeSeq as m = none
  | [], _, h, _ => by simp at h
  | b :: as, m, h, hm => by
    simp only [freeSeq]
    split
    · rename_i hb
      have : a ∈ as := by
        rcases List.mem_cons.1 h with rfl | h
        · exact absurd hb hm
        · exact h
      exact freeSeq_dead as _ this (fun h' => hm (List.mem_of_mem_erase h'))
    · rfl

mutual
theorem freeE_eq : ∀ (e : HExpr) (m : List Nat), freeE e m = freeSeq (ids e) m
  | .name a _, m => by rw [ids, freeSeq_one, freeE]
  | .cst a _, m => by rw [ids, freeSeq_one, freeE]
  | .term a _ v, m => by
    rw [ids, freeE, freeSeq_append, freeSeq_one, freeE_eq v]
    split
    · rfl
    · rename_i h
      rw [← freeSeq_one, ← freeSeq_append, freeSeq_dead _ _ _ h]; simp
  | .bin a _ v _, m => by
    rw [ids, freeE, freeSeq_append, freeSeq_one, freeE_eq v]
    split
    · rfl
    · rename_i h
      rw [← freeSeq_one, ← freeSeq_append, freeSeq_dead _ _ _ h]; simp
  | .red a _ es, m => by rw [ids, freeE, freeL_eq a es m]
theorem freeL_eq (r : Nat) : ∀ (es : List HExpr) (m : List Nat),
    (freeL r es m).bind (release r) = freeSeq (idsL es ++ [r]) m
  | [], m => by simp [freeL, idsL, freeSeq_one]
  | e :: es, m => by
    rw [freeL, idsL, List.append_assoc]
    split
    · rw [freeSeq_append, freeE_eq e m, Option.bind_assoc]
      congr 1
      funext m'
      exact freeL_eq r es m'
    · rename_i h
      rw [freeSeq_dead _ _ _ h] <;> simp
end

theorem freeO_eq (o : Option HExpr) (m : List Nat) : freeO o m = freeSeq (idsO o) m := by
  cases o with
  | none => rfl
  | some e => exact freeE_eq e m

theorem freeSeq_spec : ∀ (as m : List Nat), m.Nodup → ∀ m', freeSeq as m = some m' ↔
    as.Nodup ∧ (∀ a ∈ as, a ∈ m) ∧ m' = m.diff as
  | [], m, _, m' => by simp [freeSeq, eq_comm]
  | a :: as, m, hm, m' => by
    simp only [freeSeq]
    split
    · rename_i ha
      rw [freeSeq_spec as _ (hm.erase a)]
      simp only [List.nodup_cons, List.mem_cons, forall_eq_or_imp, List.diff_cons, hm.mem_erase_iff]
      constructor
      · rintro ⟨h1, h2, h3⟩
        exact ⟨⟨fun h => (h2 a h).1 rfl, h1⟩, ⟨ha, fun b hb => (h2 b hb).2⟩, h3⟩
      · rintro ⟨⟨h0, h1⟩, ⟨_, h2⟩, h3⟩
        exact ⟨h1, fun b hb => ⟨fun he => h0 (he ▸ hb), h2 b hb⟩, h3⟩
    · rename_i ha
      simp only [reduceCtorEq, false_iff]
      rintro ⟨_, h, _⟩
      exact ha (h a (by simp))

theorem mem_diff {m as : List Nat} (hm : m.Nodup) (x : Nat) : x ∈ m.diff as ↔ x ∈ m ∧ x ∉ as := by
  exact hm.mem_diff_iff

/-- **C88.** An expression can be freed exactly when all its nodes are in use and no node is reached twice;
    afterwards exactly its nodes are not in use any more. -/
theorem C88_free (e : HExpr) (m : List Nat) (hm : m.Nodup) :
    ((∃ m', freeE e m = some m') ↔ (ids e).Nodup ∧ ∀ a ∈ ids e, a ∈ m) ∧
    ∀ m', freeE e m = some m' → m'.Nodup ∧ ∀ x, x ∈ m' ↔ x ∈ m ∧ x ∉ ids e := by
  rw [freeE_eq]
  refine ⟨⟨?_, ?_⟩, fun m' h => ?_⟩
  · rintro ⟨m', h⟩
    have := (freeSeq_spec _ _ hm _).1 h
    exact ⟨this.1, this.2.1⟩
  · rintro ⟨h1, h2⟩
    exact ⟨_, (freeSeq_spec _ _ hm _).2 ⟨h1, h2, rfl⟩⟩
  · obtain ⟨_, _, rfl⟩ := (freeSeq_spec _ _ hm _).1 h
    exact ⟨hm.diff, mem_diff hm⟩

theorem ids_ne_nil (e : HExpr) : ids e ≠ [] := by cases e <;> simp [ids]

/-- **C88.** An expression that has been freed cannot be freed again: two loops, or the two bounds of a loop,
    must not share an expression. -/
theorem C88_no_sharing (e : HExpr) (m m' : List Nat) (hm : m.Nodup) (h : freeE e m = some m') :
    freeE e m' = none := by
  obtain ⟨a, ha⟩ := List.exists_mem_of_ne_nil _ (ids_ne_nil e)
  rw [freeE_eq]
  exact freeSeq_dead _ _ ha fun h' => (((C88_free e m hm).2 m' h).2 a |>.1 h').2 ha

/-! ## Copying -/

mutual
theorem copyE_spec {fresh : List Nat → Nat} (hf : ∀ m, fresh m ∉ m) : ∀ (e : HExpr) (m : List Nat),
    m.Nodup → (∀ a ∈ ids e, a ∈ m) → ∃ e' m', copyE fresh e m = some (e', m') ∧ shape e' = shape e ∧
      m'.Nodup ∧ m'.Perm (ids e' ++ m)
  | .name a s, m, hm, h => by
    refine ⟨.name (fresh m) s, fresh m :: m, ?_, rfl, List.nodup_cons.2 ⟨hf m, hm⟩, .refl _⟩
    rw [copyE, if_pos (h a (by simp [ids]))]
  | .cst a s, m, hm, h => by
    refine ⟨.cst (fresh m) s, fresh m :: m, ?_, rfl, List.nodup_cons.2 ⟨hf m, hm⟩, .refl _⟩
    rw [copyE, if_pos (h a (by simp [ids]))]
  | .term a c v, m, hm, h => by
    obtain ⟨v', m', h1, h2, h3, h4⟩ := copyE_spec hf v m hm fun b hb => h b (by simp [ids, hb])
    refine ⟨.term (fresh m') c v', fresh m' :: m', ?_, by simp [shape, h2],
      List.nodup_cons.2 ⟨hf m', h3⟩, ?_⟩
    · rw [copyE, if_pos (h a (by simp [ids])), h1]; rfl
    · rw [ids, List.append_assoc]
      exact (h4.cons _).trans List.perm_middle.symm
  | .bin a t v k, m, hm, h => by
    obtain ⟨v', m', h1, h2, h3, h4⟩ := copyE_spec hf v m hm fun b hb => h b (by simp [ids, hb])
    refine ⟨.bin (fresh m') t v' k, fresh m' :: m', ?_, by simp [shape, h2],
      List.nodup_cons.2 ⟨hf m', h3⟩, ?_⟩
    · rw [copyE, if_pos (h a (by simp [ids])), h1]; rfl
    · rw [ids, List.append_assoc]
      exact (h4.cons _).trans List.perm_middle.symm
  | .red a t es, m, hm, h => by
    obtain ⟨es', m', h1, h2, h3, h4⟩ := copyL_spec hf es (fresh m :: m) (List.nodup_cons.2 ⟨hf m, hm⟩)
      fun b hb => List.mem_cons_of_mem _ (h b (by simp [ids, hb]))
    refine ⟨.red (fresh m) t es', m', ?_, by simp [shape, h2], h3, ?_⟩
    · rw [copyE, if_pos (h a (by simp [ids])), h1]; rfl
    · rw [ids, List.append_assoc]
      exact h4
theorem copyL_spec {fresh : List Nat → Nat} (hf : ∀ m, fresh m ∉ m) : ∀ (es : List HExpr) (m : List Nat),
    m.Nodup → (∀ a ∈ idsL es, a ∈ m) → ∃ es' m', copyL fresh es m = some (es', m') ∧
      shapes es' = shapes es ∧ m'.Nodup ∧ m'.Perm (idsL es' ++ m)
  | [], m, hm, _ => ⟨[], m, rfl, rfl, hm, .refl _⟩
  | e :: es, m, hm, h => by
    obtain ⟨e', m1, h1, h2, h3, h4⟩ := copyE_spec hf e m hm fun b hb => h b (by simp [idsL, hb])
    obtain ⟨es', m2, k1, k2, k3, k4⟩ := copyL_spec hf es m1 h3 fun b hb =>
      h4.mem_iff.2 (List.mem_append_right _ (h b (by simp [idsL, hb])))
    refine ⟨e' :: es', m2, ?_, by simp [shapes, h2, k2], k3, ?_⟩
    · rw [copyL, h1]; simp [k1]
    · rw [idsL]
      refine k4.trans ((List.Perm.append_left _ h4).trans ?_)
      rw [← List.append_assoc]
      exact List.Perm.append_right _ List.perm_append_comm
end

/-- **C88.** The copy of an expression that is in use is the same expression, made of nodes that were not in
    use, each reached once; nothing else is allocated and nothing is freed. -/
theorem C88_copy (fresh : List Nat → Nat) (hf : ∀ m, fresh m ∉ m) (e : HExpr) (m : List Nat)
    (hm : m.Nodup) (h : ∀ a ∈ ids e, a ∈ m) : ∃ e' m', copyE fresh e m = some (e', m') ∧
      shape e' = shape e ∧ (ids e').Nodup ∧ (∀ a ∈ ids e', a ∉ m) ∧ m'.Nodup ∧
      ∀ x, x ∈ m' ↔ x ∈ ids e' ∨ x ∈ m := by
  obtain ⟨e', m', h1, h2, h3, h4⟩ := copyE_spec hf e m hm h
  have hn := h4.nodup_iff.1 h3
  rw [List.nodup_append] at hn
  exact ⟨e', m', h1, h2, hn.1, fun a ha ha' => hn.2.2 a ha a ha' rfl, h3, fun x => by
    rw [h4.mem_iff, List.mem_append]⟩

/-- **C88.** The copy stays in use when the original is freed, and can be freed after it; then in use is what was
    in use before the copy, without the nodes of the original. -/
theorem C88_copy_survives (fresh : List Nat → Nat) (hf : ∀ m, fresh m ∉ m) (e : HExpr) (m : List Nat)
    (hm : m.Nodup) (h1 : (ids e).Nodup) (h2 : ∀ a ∈ ids e, a ∈ m) : ∃ e' m' m1 m2,
      copyE fresh e m = some (e', m') ∧ freeE e m' = some m1 ∧ (∀ a ∈ ids e', a ∈ m1) ∧
      freeE e' m1 = some m2 ∧ ∀ x, x ∈ m2 ↔ x ∈ m ∧ x ∉ ids e := by
  obtain ⟨e', m', k1, _, k2, k3, k4, k5⟩ := C88_copy fresh hf e m hm h2
  have f1 := C88_free e m' k4
  obtain ⟨m1, j1⟩ := f1.1.2 ⟨h1, fun a ha => (k5 a).2 (Or.inr (h2 a ha))⟩
  obtain ⟨j2, j3⟩ := f1.2 m1 j1
  have live : ∀ a ∈ ids e', a ∈ m1 := fun a ha =>
    (j3 a).2 ⟨(k5 a).2 (Or.inl ha), fun h => k3 a ha (h2 a h)⟩
  have f2 := C88_free e' m1 j2
  obtain ⟨m2, i1⟩ := f2.1.2 ⟨k2, live⟩
  refine ⟨e', m', m1, m2, k1, j1, live, i1, fun x => ?_⟩
  rw [(f2.2 m2 i1).2, j3, k5]
  constructor
  · rintro ⟨⟨h | h, h'⟩, h''⟩
    · exact absurd h h''
    · exact ⟨h, h'⟩
  · rintro ⟨h, h'⟩
    exact ⟨⟨Or.inr h, h'⟩, fun h'' => k3 x h'' h⟩

/-! ## Loops -/

theorem freeBounds_ok {b : Option HExpr × Option HExpr} {m : List Nat} (hm : m.Nodup)
    (h1 : (idsO b.1 ++ idsO b.2).Nodup) (h2 : ∀ a ∈ idsO b.1 ++ idsO b.2, a ∈ m) :
    ∃ m', freeBounds b m = some m' ∧ ∀ x, x ∈ m' ↔ x ∈ m ∧ x ∉ idsO b.1 ++ idsO b.2 := by
  have e : freeBounds b m = freeSeq (idsO b.1 ++ idsO b.2) m := by
    rw [freeBounds, freeSeq_append, freeO_eq]
    congr 1
    funext m'
    exact freeO_eq _ _
  refine ⟨_, e.trans ((freeSeq_spec _ _ hm _).2 ⟨h1, h2, rfl⟩), mem_diff hm⟩

theorem owned {b : Option HExpr × Option HExpr} {m m' N old : List Nat} (hn : m'.Nodup) (hp : m'.Perm (N ++ m))
    (hb : (idsO b.1 ++ idsO b.2).Perm (N ++ old)) (ho : old.Nodup) (hs : ∀ a ∈ old, a ∈ m) :
    ∃ m'', freeBounds b m' = some m'' ∧ ∀ x, x ∈ m'' ↔ x ∈ m ∧ x ∉ old := by
  have hnm := hp.nodup_iff.1 hn
  rw [List.nodup_append] at hnm
  obtain ⟨n1, n2, n3⟩ := hnm
  obtain ⟨m'', k1, k2⟩ := freeBounds_ok (b := b) hn
    (hb.nodup_iff.2 (List.nodup_append.2 ⟨n1, ho, fun a ha c hc => n3 a ha c (hs c hc)⟩))
    (fun a ha => hp.mem_iff.2 (by
      rcases List.mem_append.1 (hb.mem_iff.1 ha) with h | h
      · exact List.mem_append_left _ h
      · exact List.mem_append_right _ (hs a h)))
  refine ⟨m'', k1, fun x => ?_⟩
  rw [k2, hp.mem_iff, hb.mem_iff, List.mem_append, List.mem_append, not_or]
  constructor
  · rintro ⟨h | h, h1, h2⟩
    · exact absurd h h1
    · exact ⟨h, h2⟩
  · rintro ⟨h, h2⟩
    exact ⟨Or.inr h, fun h1 => n3 x h1 x h rfl, h2⟩

mutual
theorem copy_same : ∀ e : Expr, copy e = e
  | .name _ => rfl
  | .cst _ => rfl
  | .term _ v => by rw [copy, copy_same v]
  | .bin _ l _ => by rw [copy, copy_same l]
  | .red _ l => by rw [copy, copyList_same l]
theorem copyList_same : ∀ l : List Expr, copyList l = l
  | [] => rfl
  | e :: es => by rw [copyList, copy_same e, copyList_same es]
end

/-- The memory after making one of the bounds from the other one. -/
theorem made {fresh : List Nat → Nat} (hf : ∀ m, fresh m ∉ m) (e : HExpr) (m : List Nat) (hm : m.Nodup)
    (h : ∀ a ∈ ids e, a ∈ m) : ∃ e' m', copyE fresh e (fresh m :: m) = some (e', m') ∧ shape e' = shape e ∧
      (fresh (fresh m' :: m') :: fresh m' :: m').Nodup ∧
      ∀ k, (fresh (fresh m' :: m') :: fresh m' :: m').Perm
        (ids (.red (fresh m) .sum [.cst (fresh (fresh m' :: m')) k, .term (fresh m') 1 e']) ++ m) := by
  obtain ⟨e', m', h1, h2, h3, h4⟩ := copyE_spec hf e (fresh m :: m) (List.nodup_cons.2 ⟨hf m, hm⟩)
    fun a ha => List.mem_cons_of_mem _ (h a ha)
  refine ⟨e', m', h1, h2, List.nodup_cons.2 ⟨hf _, List.nodup_cons.2 ⟨hf _, h3⟩⟩, fun k => ?_⟩
  simp only [ids, idsL, List.append_nil, List.cons_append, List.nil_append, List.append_assoc]
  refine List.Perm.cons _ ?_
  exact (h4.cons _).trans List.perm_middle.symm

/-- **C88, `callable`.** Completing the bounds of a loop gives the bounds of C81, and freeing the loop's bounds
    afterwards frees what was allocated for them, and each node once: in use stays what was in use and did not
    belong to the loop. -/
theorem C88_for_bound (fresh : List Nat → Nat) (hf : ∀ m, fresh m ∉ m) (lb ub : Option HExpr) (m : List Nat)
    (hm : m.Nodup) (h1 : (idsO lb ++ idsO ub).Nodup) (h2 : ∀ a ∈ idsO lb ++ idsO ub, a ∈ m) :
    ∃ b m', forBoundH fresh lb ub m = some (b, m') ∧
      (b.1.map shape, b.2.map shape) = forBound (lb.map shape) (ub.map shape) ∧
      ∃ m'', freeBounds b m' = some m'' ∧ ∀ x, x ∈ m'' ↔ x ∈ m ∧ x ∉ idsO lb ++ idsO ub := by
  cases lb with
  | none =>
    cases ub with
    | none =>
      have n2 : (fresh (fresh m :: m) :: fresh m :: m).Nodup :=
        List.nodup_cons.2 ⟨hf _, List.nodup_cons.2 ⟨hf m, hm⟩⟩
      exact ⟨_, _, rfl, rfl, owned (N := [fresh (fresh m :: m), fresh m]) n2 (.refl _)
        (by simp [idsO, ids]) h1 h2⟩
    | some u =>
      obtain ⟨e', m', k1, k2, k3, k4⟩ := made hf u m hm (by simpa [idsO] using h2)
      refine ⟨_, _, by simp only [forBoundH, k1]; rfl, ?_, owned k3 (k4 (-1000)) (.refl _) h1 h2⟩
      simp [forBound, shape, shapes, k2, copy_same]
  | some l =>
    cases ub with
    | none =>
      obtain ⟨e', m', k1, k2, k3, k4⟩ := made hf l m hm (by simpa [idsO] using h2)
      refine ⟨_, _, by simp only [forBoundH, k1]; rfl, ?_, owned k3 (k4 1000) ?_ h1 h2⟩
      · simp [forBound, shape, shapes, k2, copy_same]
      · simp only [idsO, List.append_nil]
        exact List.perm_append_comm
    | some u => exact ⟨_, _, rfl, rfl, owned (N := []) hm (.refl _) (.refl _) h1 h2⟩

/-- **C88, loops for equalities.** Without `otl`, a loop made from an equality gets its last value and a copy
    of it as first value; freeing the bounds of the loop frees each node once and nothing else. -/
theorem C88_equation_loop (fresh : List Nat → Nat) (hf : ∀ m, fresh m ∉ m) (callable : Bool) (e : HExpr)
    (m : List Nat) (hm : m.Nodup) (h1 : (ids e).Nodup) (h2 : ∀ a ∈ ids e, a ∈ m) :
    ∃ b m', equationBounds fresh callable e m = some (b, m') ∧
      b.1.map shape = some (shape e) ∧ b.2.map shape = some (shape e) ∧
      ∃ m'', freeBounds b m' = some m'' ∧ ∀ x, x ∈ m'' ↔ x ∈ m ∧ x ∉ ids e := by
  obtain ⟨e', m', k1, k2, k3, k4⟩ := copyE_spec hf e m hm h2
  refine ⟨(some e', some e), m', ?_, by simp [k2], by simp, owned k3 k4 (.refl _) h1 h2⟩
  rw [equationBounds, k1]
  cases callable <;> rfl

/-! ## Examples -/

/-- An allocator: one more than the largest address in use. -/
def next (m : List Nat) : Nat := m.foldr max 0 + 1

theorem le_max : ∀ (m : List Nat) (a : Nat), a ∈ m → a ≤ m.foldr max 0
  | b :: m, a, h => by
    rcases List.mem_cons.1 h with rfl | h
    · exact Nat.le_max_left _ _
    · exact le_trans (le_max m a h) (Nat.le_max_right _ _)

theorem next_fresh (m : List Nat) : next m ∉ m := fun h => by
  have := le_max m _ h
  unfold next at this
  omega

/-- `max(N, floord(2*i, 3))`, without the other nodes of a clast. -/
def exE : HExpr := .red 1 .max [.term 2 1 (.name 3 "N"), .bin 4 .fdiv (.term 5 2 (.name 6 "i")) 3]

-- the hypotheses hold, and the copy has six new nodes
example : ∃ e' m', copyE next exE [1, 2, 3, 4, 5, 6, 7] = some (e', m') ∧ shape e' = shape exE ∧
    (ids e').Nodup ∧ (∀ a ∈ ids e', a ∉ [1, 2, 3, 4, 5, 6, 7]) ∧ m'.Nodup ∧
    ∀ x, x ∈ m' ↔ x ∈ ids e' ∨ x ∈ [1, 2, 3, 4, 5, 6, 7] :=
  C88_copy next next_fresh exE _ (by decide) (by decide)
example : (copyE next exE [1, 2, 3, 4, 5, 6, 7]).map Prod.snd =
    some [13, 12, 11, 10, 9, 8, 1, 2, 3, 4, 5, 6, 7] := by rfl
example : freeE exE [1, 2, 3, 4, 5, 6, 7] = some [7] := by rfl
example : freeE exE [7] = none := C88_no_sharing exE [1, 2, 3, 4, 5, 6, 7] [7] (by decide) rfl
-- the copy survives
example := C88_copy_survives next next_fresh exE [1, 2, 3, 4, 5, 6, 7] (by decide) (by decide) (by decide)
-- a loop without a last value
example : ∃ b m', forBoundH next (some exE) none [1, 2, 3, 4, 5, 6, 7] = some (b, m') ∧
    freeBounds b m' = some [7] := ⟨_, _, rfl, rfl⟩
-- the copy is needed: with the same expression as both bounds, the second one is freed twice
example : freeBounds (some exE, some exE) [1, 2, 3, 4, 5, 6, 7] = none := by rfl

end Verif.Props.ClastMem
