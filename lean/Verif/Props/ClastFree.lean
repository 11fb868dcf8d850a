import Verif.Model.ClastFree
import Verif.Props.ClastMem

/-!
# C89: freeing a clast frees all its nodes, each once
-/

namespace Verif.Props.ClastFree
open Verif.Clast Verif.ClastGen Verif.ClastMem Verif.ClastFree Verif.Props.ClastMem

/-! ## Specification -/

/-- The addresses of the nodes of substitutions, equations and statements, one for each way to reach it. -/
def idsSubs (ss : List (Nat × HExpr)) : List Nat := ss.flatMap fun s => ids s.2 ++ [s.1]
def idsEqs (qs : List (HExpr × HExpr × Int)) : List Nat := qs.flatMap fun q => ids q.1 ++ ids q.2.1
mutual
def idsS : HStmt → List Nat
  | .ass a _ e => ids e ++ [a]
  | .user a _ subs => idsSubs subs ++ [a]
  | .block a b => idsSs b ++ [a]
  | .for_ a _ lb ub _ strs b => idsO lb ++ (idsO ub ++ (idsSs b ++ (strs ++ [a])))
  | .guard a qs b => idsSs b ++ (idsEqs qs ++ [a])
def idsSs : List HStmt → List Nat
  | [] => []
  | s :: ss => idsS s ++ idsSs ss
end

mutual
/-- The statement without addresses. -/
def shapeS : HStmt → Stmt
  | .ass _ x e => .ass x (shape e)
  | .user _ n subs => .user n (subs.map fun s => shape s.2)
  | .block _ b => .block (shapeSs b)
  | .for_ _ it lb ub k _ b => .for_ it (lb.map shape) (ub.map shape) k (shapeSs b)
  | .guard _ qs b => .guard (qs.map fun q => ⟨shape q.1, shape q.2.1, q.2.2⟩) (shapeSs b)
def shapeSs : List HStmt → List Stmt
  | [] => []
  | s :: ss => shapeS s :: shapeSs ss
end

/-! ## Freeing -/

theorem rd_eq {a : Nat} {as : List Nat} {k : List Nat → Option (List Nat)}
    (hk : ∀ m, k m = freeSeq as m) (ha : a ∈ as) (m : List Nat) : rd a k m = freeSeq as m := by
  unfold rd
  split
  · exact hk m
  · rename_i h; exact (freeSeq_dead as m ha h).symm

theorem bind_eq {as bs : List Nat} {o : Option (List Nat)} {k : List Nat → Option (List Nat)} {m : List Nat}
    (ho : o = freeSeq as m) (hk : ∀ m, k m = freeSeq bs m) : o.bind k = freeSeq (as ++ bs) m := by
  rw [freeSeq_append, ho]
  congr 1
  funext m'
  exact hk m'

theorem release_eq (a : Nat) (m : List Nat) : release a m = freeSeq [a] m := by rw [freeSeq_one]

theorem freeAss_eq (a : Nat) (e : HExpr) (m : List Nat) : freeAss a e m = freeSeq (ids e ++ [a]) m :=
  rd_eq (fun m => bind_eq (freeE_eq e m) (release_eq a)) (by simp) m

theorem freeSubs_eq : ∀ (ss : List (Nat × HExpr)) (m : List Nat), freeSubs ss m = freeSeq (idsSubs ss) m
  | [], _ => rfl
  | s :: ss, m => by
    rw [freeSubs, idsSubs, List.flatMap_cons]
    exact rd_eq (fun m => bind_eq (freeAss_eq s.1 s.2 m) (freeSubs_eq ss)) (by simp) m

theorem freeEqs_eq (g : Nat) : ∀ (qs : List (HExpr × HExpr × Int)) (m : List Nat),
    (freeEqs g qs m).bind (release g) = freeSeq (idsEqs qs ++ [g]) m
  | [], m => by simp [freeEqs, idsEqs, freeSeq_one]
  | q :: qs, m => by
    have e : (freeEqs g (q :: qs) m).bind (release g) =
        rd g (fun m => (freeE q.1 m).bind (rd g fun m => (freeE q.2.1 m).bind fun m =>
          (freeEqs g qs m).bind (release g))) m := by
      rw [freeEqs]
      unfold rd
      split
      · rw [Option.bind_assoc]
        congr 1
        funext m'
        split
        · rw [Option.bind_assoc]
        · rfl
      · rfl
    rw [e, show idsEqs (q :: qs) ++ [g] = ids q.1 ++ (ids q.2.1 ++ (idsEqs qs ++ [g])) by
      simp [idsEqs]]
    exact rd_eq (fun m => bind_eq (freeE_eq _ m) (rd_eq (fun m => bind_eq (freeE_eq _ m) (freeEqs_eq g qs))
      (by simp))) (by simp) m

theorem freeStrs_eq (f : Nat) : ∀ (ss : List Nat) (m : List Nat),
    (freeStrs f ss m).bind (release f) = freeSeq (ss ++ [f]) m
  | [], m => by simp [freeStrs, freeSeq_one]
  | s :: ss, m => by
    have e : (freeStrs f (s :: ss) m).bind (release f) =
        rd f (fun m => (release s m).bind fun m => (freeStrs f ss m).bind (release f)) m := by
      rw [freeStrs]
      unfold rd
      split
      · rw [Option.bind_assoc]
      · rfl
    rw [e]
    exact rd_eq (as := [s] ++ (ss ++ [f])) (fun m => bind_eq (release_eq s m) (freeStrs_eq f ss)) (by simp) m

theorem addr_mem (s : HStmt) : s.addr ∈ idsS s := by cases s <;> simp [HStmt.addr, idsS]

mutual
theorem freeS_eq : ∀ (s : HStmt) (m : List Nat), freeS s m = freeSeq (idsS s) m
  | .ass a _ e, m => by rw [freeS, idsS]; exact freeAss_eq a e m
  | .user a _ subs, m => by
    rw [freeS, idsS]
    exact rd_eq (fun m => bind_eq (freeSubs_eq subs m) (release_eq a)) (by simp) m
  | .block a b, m => by
    rw [freeS, idsS]
    exact rd_eq (fun m => bind_eq (freeSs_eq b m) (release_eq a)) (by simp) m
  | .for_ a _ lb ub _ strs b, m => by
    rw [freeS, idsS]
    exact rd_eq (fun m => bind_eq (freeO_eq lb m) (rd_eq (fun m => bind_eq (freeO_eq ub m)
      (rd_eq (fun m => bind_eq (freeSs_eq b m) (freeStrs_eq a strs)) (by simp))) (by simp))) (by simp) m
  | .guard a qs b, m => by
    rw [freeS, idsS]
    exact rd_eq (fun m => bind_eq (freeSs_eq b m) (freeEqs_eq a qs)) (by simp) m
theorem freeSs_eq : ∀ (ss : List HStmt) (m : List Nat), freeSs ss m = freeSeq (idsSs ss) m
  | [], _ => by rw [freeSs, idsSs, freeSeq]
  | s :: ss, m => by
    rw [freeSs, idsSs]
    exact rd_eq (fun m => bind_eq (freeS_eq s m) (freeSs_eq ss)) (List.mem_append_left _ (addr_mem s)) m
end

/-- **C89.** A clast can be freed, without reading or freeing anything that is not in use, exactly when all its
    nodes are in use and none is reached twice; afterwards exactly its nodes are not in use any more. -/
theorem C89_free (ss : List HStmt) (m : List Nat) (hm : m.Nodup) :
    ((∃ m', freeSs ss m = some m') ↔ (idsSs ss).Nodup ∧ ∀ a ∈ idsSs ss, a ∈ m) ∧
    ∀ m', freeSs ss m = some m' → m'.Nodup ∧ ∀ x, x ∈ m' ↔ x ∈ m ∧ x ∉ idsSs ss := by
  rw [freeSs_eq]
  refine ⟨⟨?_, ?_⟩, fun m' h => ?_⟩
  · rintro ⟨m', h⟩
    have := (freeSeq_spec _ _ hm _).1 h
    exact ⟨this.1, this.2.1⟩
  · rintro ⟨h1, h2⟩
    exact ⟨_, (freeSeq_spec _ _ hm _).2 ⟨h1, h2, rfl⟩⟩
  · obtain ⟨_, _, rfl⟩ := (freeSeq_spec _ _ hm _).1 h
    exact ⟨hm.diff, mem_diff hm⟩

/-! ## Building -/

section
variable {fresh : List Nat → Nat}

/-- `m'` is the memory after allocating `as` in `m`. -/
def Alloc (as m m' : List Nat) : Prop := m'.Nodup ∧ m'.Perm (as ++ m)

theorem Alloc.one (hf : ∀ m, fresh m ∉ m) {m : List Nat} (hm : m.Nodup) : Alloc [fresh m] m (fresh m :: m) :=
  ⟨List.nodup_cons.2 ⟨hf m, hm⟩, .refl _⟩

/-- Two steps. -/
theorem Alloc.two {as bs m m1 m2 : List Nat} (h1 : Alloc as m m1) (h2 : Alloc bs m1 m2) :
    Alloc (as ++ bs) m m2 :=
  ⟨h2.1, (h2.2.trans (List.Perm.append_left _ h1.2)).trans (by
    rw [← List.append_assoc]; exact List.Perm.append_right _ List.perm_append_comm)⟩

theorem Alloc.perm {as bs m m1 : List Nat} (h : Alloc as m m1) (hp : as.Perm bs) : Alloc bs m m1 :=
  ⟨h.1, h.2.trans (List.Perm.append_right _ hp)⟩

mutual
theorem buildE_spec (hf : ∀ m, fresh m ∉ m) : ∀ (e : Expr) (m : List Nat), m.Nodup →
    shape (buildE fresh e m).1 = e ∧ Alloc (ids (buildE fresh e m).1) m (buildE fresh e m).2
  | .name s, m, hm => by rw [buildE]; exact ⟨rfl, .one hf hm⟩
  | .cst s, m, hm => by rw [buildE]; exact ⟨rfl, .one hf hm⟩
  | .term c v, m, hm => by
    obtain ⟨h1, h2⟩ := buildE_spec hf v m hm
    rw [buildE]
    exact ⟨by simp [shape, h1], by rw [ids]; exact h2.two (.one hf h2.1)⟩
  | .bin t v k, m, hm => by
    obtain ⟨h1, h2⟩ := buildE_spec hf v m hm
    rw [buildE]
    exact ⟨by simp [shape, h1], by rw [ids]; exact h2.two (.one hf h2.1)⟩
  | .red t es, m, hm => by
    have h0 := Alloc.one hf hm
    obtain ⟨h1, h2⟩ := buildEs_spec hf es _ h0.1
    rw [buildE]
    exact ⟨by simp [shape, h1], by rw [ids]; exact (h0.two h2).perm List.perm_append_comm⟩
theorem buildEs_spec (hf : ∀ m, fresh m ∉ m) : ∀ (es : List Expr) (m : List Nat), m.Nodup →
    shapes (buildEs fresh es m).1 = es ∧ Alloc (idsL (buildEs fresh es m).1) m (buildEs fresh es m).2
  | [], m, hm => by rw [buildEs]; exact ⟨rfl, hm, .refl _⟩
  | e :: es, m, hm => by
    obtain ⟨h1, h2⟩ := buildE_spec hf e m hm
    obtain ⟨k1, k2⟩ := buildEs_spec hf es _ h2.1
    rw [buildEs]
    exact ⟨by simp [shapes, h1, k1], by rw [idsL]; exact h2.two k2⟩
end

theorem buildO_spec (hf : ∀ m, fresh m ∉ m) (o : Option Expr) (m : List Nat) (hm : m.Nodup) :
    (buildO fresh o m).1.map shape = o ∧ Alloc (idsO (buildO fresh o m).1) m (buildO fresh o m).2 := by
  cases o with
  | none => exact ⟨rfl, hm, .refl _⟩
  | some e =>
    obtain ⟨h1, h2⟩ := buildE_spec hf e m hm
    exact ⟨by simp [buildO, h1], h2⟩

theorem buildSubs_spec (hf : ∀ m, fresh m ∉ m) : ∀ (es : List Expr) (m : List Nat), m.Nodup →
    (buildSubs fresh es m).1.map (fun s => shape s.2) = es ∧
      Alloc (idsSubs (buildSubs fresh es m).1) m (buildSubs fresh es m).2
  | [], m, hm => ⟨rfl, hm, .refl _⟩
  | e :: es, m, hm => by
    obtain ⟨h1, h2⟩ := buildE_spec hf e m hm
    have h3 := h2.two (.one hf h2.1)
    obtain ⟨k1, k2⟩ := buildSubs_spec hf es _ h3.1
    rw [buildSubs]
    exact ⟨by simp [h1, k1], by rw [idsSubs, List.flatMap_cons]; exact h3.two k2⟩

theorem buildEqs_spec (hf : ∀ m, fresh m ∉ m) : ∀ (es : List Eqn) (m : List Nat), m.Nodup →
    (buildEqs fresh es m).1.map (fun q => (⟨shape q.1, shape q.2.1, q.2.2⟩ : Eqn)) = es ∧
      Alloc (idsEqs (buildEqs fresh es m).1) m (buildEqs fresh es m).2
  | [], m, hm => ⟨rfl, hm, .refl _⟩
  | e :: es, m, hm => by
    obtain ⟨h1, h2⟩ := buildE_spec hf e.lhs m hm
    obtain ⟨i1, i2⟩ := buildE_spec hf e.rhs _ h2.1
    have h3 := h2.two i2
    obtain ⟨k1, k2⟩ := buildEqs_spec hf es _ h3.1
    rw [buildEqs]
    exact ⟨by simp [h1, i1, k1], by rw [idsEqs, List.flatMap_cons]; exact h3.two k2⟩

mutual
theorem buildS_spec (hf : ∀ m, fresh m ∉ m) : ∀ (s : Stmt) (m : List Nat), m.Nodup →
    shapeS (buildS fresh s m).1 = s ∧ Alloc (idsS (buildS fresh s m).1) m (buildS fresh s m).2
  | .ass x e, m, hm => by
    obtain ⟨h1, h2⟩ := buildE_spec hf e m hm
    rw [buildS]
    exact ⟨by simp [shapeS, h1], by rw [idsS]; exact h2.two (.one hf h2.1)⟩
  | .user n es, m, hm => by
    obtain ⟨h1, h2⟩ := buildSubs_spec hf es m hm
    rw [buildS]
    exact ⟨by simp only [shapeS, h1], by rw [idsS]; exact h2.two (.one hf h2.1)⟩
  | .block b, m, hm => by
    have h0 := Alloc.one hf hm
    obtain ⟨h1, h2⟩ := buildSs_spec hf b _ h0.1
    rw [buildS]
    exact ⟨by simp only [shapeS, h1], by rw [idsS]; exact (h0.two h2).perm List.perm_append_comm⟩
  | .for_ it lb ub k b, m, hm => by
    obtain ⟨h1, h2⟩ := buildO_spec hf lb m hm
    obtain ⟨i1, i2⟩ := buildO_spec hf ub _ h2.1
    have h0 := Alloc.one hf i2.1
    obtain ⟨k1, k2⟩ := buildSs_spec hf b _ h0.1
    rw [buildS]
    refine ⟨by simp only [shapeS, h1, i1, k1], ?_⟩
    rw [idsS]
    exact h2.two (i2.two ((h0.two k2).perm List.perm_append_comm))
  | .guard qs b, m, hm => by
    have h0 := Alloc.one hf hm
    obtain ⟨h1, h2⟩ := buildEqs_spec hf qs _ h0.1
    obtain ⟨k1, k2⟩ := buildSs_spec hf b _ h2.1
    rw [buildS]
    refine ⟨by simp only [shapeS, h1, k1], ?_⟩
    rw [idsS]
    exact ((h0.two h2).two k2).perm
      (List.perm_append_comm.trans (List.Perm.append_left _ List.perm_append_comm))
theorem buildSs_spec (hf : ∀ m, fresh m ∉ m) : ∀ (ss : List Stmt) (m : List Nat), m.Nodup →
    shapeSs (buildSs fresh ss m).1 = ss ∧ Alloc (idsSs (buildSs fresh ss m).1) m (buildSs fresh ss m).2
  | [], m, hm => by rw [buildSs]; exact ⟨rfl, hm, .refl _⟩
  | s :: ss, m, hm => by
    obtain ⟨h1, h2⟩ := buildS_spec hf s m hm
    obtain ⟨k1, k2⟩ := buildSs_spec hf ss _ h2.1
    rw [buildSs]
    exact ⟨by simp [shapeSs, h1, k1], by rw [idsSs]; exact h2.two k2⟩
end
end

/-- **C89.** Every clast can be made with the constructors, and freeing it gives back the memory: in use is
    what was in use before. -/
theorem C89_build_free (fresh : List Nat → Nat) (hf : ∀ m, fresh m ∉ m) (ss : List Stmt) (m : List Nat)
    (hm : m.Nodup) : ∃ hs m', buildSs fresh ss m = (hs, m') ∧ shapeSs hs = ss ∧
      (idsSs hs).Nodup ∧ (∀ a ∈ idsSs hs, a ∉ m ∧ a ∈ m') ∧
      ∃ m'', freeSs hs m' = some m'' ∧ m''.Nodup ∧ ∀ x, x ∈ m'' ↔ x ∈ m := by
  obtain ⟨h1, h2, h3⟩ := buildSs_spec hf ss m hm
  generalize buildSs fresh ss m = r at h1 h2 h3
  obtain ⟨hs, m'⟩ := r
  have hn := h3.nodup_iff.1 h2
  rw [List.nodup_append] at hn
  have live : ∀ a ∈ idsSs hs, a ∈ m' := fun a ha => h3.mem_iff.2 (List.mem_append_left _ ha)
  obtain ⟨m'', k⟩ := (C89_free hs m' h2).1.2 ⟨hn.1, live⟩
  obtain ⟨k1, k2⟩ := (C89_free hs m' h2).2 m'' k
  refine ⟨hs, m', rfl, h1, hn.1, fun a ha => ⟨fun h => hn.2.2 a ha a h rfl, live a ha⟩, m'', k, k1, fun x => ?_⟩
  rw [k2, h3.mem_iff, List.mem_append]
  constructor
  · rintro ⟨h | h, h'⟩
    · exact absurd h h'
    · exact h
  · intro h
    exact ⟨Or.inr h, fun h' => hn.2.2 x h' x h rfl⟩

/-! ## Examples -/

/-- `for (i=0;i<=N;i+=2) if (i >= 1) S1(i)` -/
def exSs : List Stmt :=
  [.for_ "i" (some (.cst 0)) (some (.term 1 (.name "N"))) 2
    [.guard [⟨.term 1 (.name "i"), .cst 1, 1⟩] [.user 1 [.term 1 (.name "i")]]]]

-- twelve nodes are allocated in a memory with one node, and freed
example : (buildSs next exSs [7]).2 = [19, 18, 17, 16, 15, 14, 13, 12, 11, 10, 9, 8, 7] := by rfl
example : freeSs (buildSs next exSs [7]).1 (buildSs next exSs [7]).2 = some [7] := by rfl
example := C89_build_free next next_fresh exSs [7] (by decide)
-- a statement that is linked at two places cannot be freed
example : freeSs [.block 1 [.ass 2 "x" (.cst 3 0)], .ass 2 "x" (.cst 3 0)] [1, 2, 3] = none := by rfl
-- a loop with a string
example : freeSs [.for_ 1 "i" none none 1 [2] []] [1, 2, 3] = some [3] := by rfl

end Verif.Props.ClastFree
