import Verif.Model.ImportMap
import Verif.Props.ImportSet

/-!
# C86: programs made from a global scattering given as an isl union map
-/

namespace Verif.Props.ImportMap
open Verif.Names Verif.UnionDomain Verif.ImportSet Verif.ImportMap Verif.Program
open Verif.Props.LoopBlock Verif.Props.UnionDomain Verif.Props.ImportSet Verif.Props.Names Verif.Props.Program

variable {D S U : Type} {dim : D → Nat} {sdim : S → Nat}

/-! ## The union domain -/

theorem adds_run : ∀ (as : List (Named D S U)) (ud : UD D S U), ud.names .iter = none → ud.names .scat = none →
    run dim sdim (as.map Call.add) ud =
      .ok { ud with n := as.foldl (fun n a => grow dim sdim a n) ud.n, domains := ud.domains ++ as }
  | [], ud, _, _ => by simp [run]
  | a :: as, ud, h1, h2 => by
    simp only [List.map_cons, run, step, addDomain, h1, h2, Option.isSome_none, Bool.false_eq_true, if_false]
    have := adds_run as
      { ud with n := grow dim sdim a ud.n, domains := ud.domains ++ [a] } h1 h2
    rw [this]
    simp

theorem grow_param (a : Named D S U) (n : Ty → Nat) : grow dim sdim a n .param = n .param := rfl

theorem fold_param : ∀ (as : List (Named D S U)) (n : Ty → Nat),
    as.foldl (fun n a => grow dim sdim a n) n .param = n .param
  | [], _ => rfl
  | a :: as, n => by rw [List.foldl_cons, fold_param as]; rfl

theorem fold_iter : ∀ (as : List (Named D S U)) (n : Ty → Nat),
    as.foldl (fun n a => grow dim sdim a n) n .iter = Nat.max (n .iter) (largest (as.map fun a => dim a.dom))
  | [], n => by simp [largest]
  | a :: as, n => by
    rw [List.foldl_cons, fold_iter as]
    simp only [largest, List.map_cons, List.foldr_cons, grow]
    split <;> simp only [Nat.max_def] <;> split_ifs <;> omega

/-- **C86.** Importing a union map succeeds.  The union domain has a domain for each map, in isl's order,
    with the name of the input space and the map as its scattering; the program gets the names of the
    parameters of the union map, and default names for iterators and scattering dimensions. -/
theorem C86_import (domOf : S → D) (null : U) (params : List CStr) (maps : List (Option CStr × S)) :
    ∃ ud, run dim sdim (mapCalls domOf null params maps) (alloc params.length) = .ok ud ∧
      ud.domains = maps.map (fun m => ⟨m.1, domOf m.2, some m.2, null⟩) ∧
      makeNames sdim ud .param = params.map some ∧
      makeNames sdim ud .iter =
        (List.range (largest (maps.map fun m => dim (domOf m.2)))).map (fun i : Nat => some (charName (105 + (i : Int)))) ∧
      makeNames sdim ud .scat =
        match maps with
        | [] => []
        | m :: _ => (List.range (sdim m.2)).map fun i => some (numName [99] (1 + i)) := by
  unfold mapCalls
  rw [run_append]
  obtain ⟨u1, p1, p2, p3, p4, p5, p6⟩ := nameCalls_run (dim := dim) (sdim := sdim) .param params []
    (alloc params.length : UD D S U) (by simp [alloc]) (by simp [alloc]) (by simp)
  have e1 : nameCalls (D := D) (S := S) (U := U) .param params =
      params.mapIdx fun i n => Call.setName (some .param) ((([] : List CStr).length + i : Nat) : Int) n := by
    simp [nameCalls]
  rw [e1, p1]
  dsimp only
  have q1 : u1.names .iter = none := by rw [p4 _ (by decide)]; rfl
  have q2 : u1.names .scat = none := by rw [p4 _ (by decide)]; rfl
  have e2 : (maps.map fun m => (Call.add (node domOf null m) : Call D S U)) =
      (maps.map (node domOf null)).map Call.add := by simp
  rw [e2, adds_run _ _ q1 q2]
  refine ⟨_, rfl, ?_, ?_, ?_, ?_⟩
  · simp [p3, alloc, node]
  · simp only [makeNames, fold_param, p2]
    by_cases hp : params = []
    · subst hp
      rw [p6 rfl]
      simp [alloc, generateItems]
    · rw [p5 hp]; simp
  · simp only [makeNames, q1, Option.getD_none, fold_iter, p2, alloc, generateItems, firstIterator]
    rw [show ∀ k, Nat.max 0 k = k from fun k => Nat.max_eq_right (Nat.zero_le k), List.map_map, List.map_map]
    rfl
  · cases maps with
    | nil => simp [makeNames, makeScats, p3, alloc]
    | cons m ms =>
      simp [makeNames, makeScats, p3, alloc, node, q2, generateItems]

/-! ## The names -/

/-- All names of the program. -/
def allOf (sdim : S → Nat) (ud : UD D S U) : List (Option CStr) :=
  makeNames sdim ud .param ++ makeNames sdim ud .iter ++ makeNames sdim ud .scat

theorem numName_ne_char {k : Nat} {a : Int} : numName [99] k ≠ charName a := by
  intro h
  have h1 := numName_length 99 k
  have h2 := charName_length a
  rw [h] at h1
  omega

/-- **C86, exact extent.** Names of the union map are not compared with the default names: the names of
    the program differ exactly when the parameters have different names, none of which is `i`, `j`, ...
    (as many as the deepest statement has iterators) or `c1`, `c2`, ... (as many as there are scattering
    dimensions), and there are at most 256 iterators. -/
theorem C86_distinct_iff (domOf : S → D) (null : U) (params : List CStr) (m : Option CStr × S)
    (ms : List (Option CStr × S)) (ud : UD D S U)
    (h : run dim sdim (mapCalls domOf null params (m :: ms)) (alloc params.length) = .ok ud) :
    (allOf sdim ud).Nodup ↔ params.Nodup ∧
      largest ((m :: ms).map fun m => dim (domOf m.2)) ≤ 256 ∧
      (∀ p ∈ params, ∀ i : Nat, i < largest ((m :: ms).map fun m => dim (domOf m.2)) → p ≠ charName (105 + i)) ∧
      (∀ p ∈ params, ∀ k : Nat, k < sdim m.2 → p ≠ numName [99] (1 + k)) := by
  obtain ⟨ud', r, _, h1, h2, h3⟩ := C86_import (dim := dim) (sdim := sdim) domOf null params (m :: ms)
  have : ud' = ud := by rw [r] at h; exact Except.ok.inj h
  subst this
  unfold allOf
  rw [h1, h2, h3]
  dsimp only
  generalize largest ((m :: ms).map fun m => dim (domOf m.2)) = n
  have e1 : (List.range n).map (fun i : Nat => some (charName (105 + (i : Int)))) =
      (generateItems n none 105).map some := by simp [generateItems]
  have e2 : (List.range (sdim m.2)).map (fun i : Nat => some (numName [99] (1 + i))) =
      (generateItems (sdim m.2) (some [99]) (-1)).map some := by simp [generateItems]
  rw [e1, e2, ← List.map_append, ← List.map_append,
    List.nodup_map_iff (fun _ _ h => Option.some.inj h), List.nodup_append, List.nodup_append, chars_nodup_iff]
  have hs := scat_nodup (sdim m.2) (-1)
  constructor
  · rintro ⟨⟨a, b, c⟩, _, d⟩
    refine ⟨a, b, fun p hp i hi => ?_, fun p hp k hk => ?_⟩
    · exact c p hp _ (mem_chars.2 ⟨i, hi, rfl⟩)
    · exact d p (List.mem_append_left _ hp) _ (List.mem_map.2 ⟨k, List.mem_range.2 hk, rfl⟩)
  · rintro ⟨a, b, c, d⟩
    refine ⟨⟨a, b, fun p hp s hs' => ?_⟩, hs, fun p hp s hs' => ?_⟩
    · obtain ⟨i, hi, rfl⟩ := mem_chars.1 hs'
      exact c p hp i hi
    · obtain ⟨k, hk, rfl⟩ := List.mem_map.1 hs'
      rcases List.mem_append.1 hp with hp | hp
      · exact d p hp k (List.mem_range.1 hk)
      · obtain ⟨i, hi, rfl⟩ := mem_chars.1 hp
        exact fun he => numName_ne_char he.symm

/-- **C86 is false of the names**: a union map whose parameter is called `i`, with a single statement of
    one iterator, gives a program whose parameter and iterator are both called `i`; and one whose
    parameter is called `c1` a program whose parameter and scattering dimension have the same name. -/
theorem C86_clash (s : CStr) (hs : s = [105] ∨ s = [99, 49]) : ∃ ud : UD Nat Nat Unit,
    run id (fun _ => 1) (mapCalls id () [s] [(some [83], 1)]) (alloc 1) = .ok ud ∧
      ¬ (allOf (fun _ => 1) ud).Nodup := by
  obtain ⟨ud, r, -⟩ := C86_import (dim := (id : Nat → Nat)) (sdim := fun _ : Nat => 1) id () [s] [(some [83], 1)]
  refine ⟨ud, r, fun hn => ?_⟩
  obtain ⟨_, _, h3, h4⟩ := (C86_distinct_iff _ _ _ _ _ _ r).1 hn
  rcases hs with rfl | rfl
  · exact h3 [105] (by simp) 0 (by decide) (by decide)
  · exact h4 [99, 49] (by simp) 0 (by decide) (by decide)

/-! ## The dates -/

/-- **C86.** If all maps have as many output dimensions, then, without blocking, the program made from the
    union map has a loop for each map, in order, whose domain has the points of the domain of the map
    after their dates, and the dates (with the scalar values put back) are those of the map.
    Partial: with blocks see C50; union maps with different numbers of output dimensions are not
    accepted (`C86_ranges`). -/
theorem C86_dates_partial {o : Ops D S} {mem : D → List Int → Prop} {date : S → List Int → List Int} (W : Laws o mem date)
    (hsc : ∀ d s y, mem (o.scatter d s) y ↔ ∃ x, mem d x ∧ y = date s x ++ x)
    (hk : ∀ s i j v, i < j → o.isScalar s i = some v → ∃ v', o.isScalar (o.erase s j) i = some v')
    (noscalars : Bool) (domOf : S → D) (null : U) (params : List CStr) (maps : List (Option CStr × S)) (n : Nat)
    (hne : maps ≠ []) (hall : ∀ m ∈ maps, o.nScat m.2 = n) :
    ∃ ud sd ls, run dim o.nScat (mapCalls domOf null params maps) (alloc params.length) = .ok ud ∧
      programLoops o dim true noscalars ud = .ok (sd, ls) ∧ ls.length = maps.length ∧ sd.length = n ∧
      ∀ (k : Nat) (m : Option CStr × S), maps[k]? = some m → ∃ l : SItem D, ls[k]? = some l ∧ l.stmts = [k + 1] ∧
        (∃ p, (makeLoops dim 0 ud.domains)[k]? = some p ∧ p.name = m.1) ∧
        ∃ t : List Int → List Int, (∀ y, mem l.dom y ↔ ∃ x, mem (domOf m.2) x ∧ y = t x ++ x) ∧
          ∀ x, sdate sd l (t x ++ x) = date m.2 x := by
  obtain ⟨ud, r, hd, -⟩ := C86_import (dim := dim) (sdim := o.nScat) domOf null params maps
  obtain ⟨sd, ls, h1, h2, h3, h4⟩ := C42_dates_partial W hsc hk dim noscalars ud n (by rw [hd]; simpa using hne)
    (by
      intro a ha
      rw [hd] at ha
      obtain ⟨m, hm, rfl⟩ := List.mem_map.1 ha
      exact ⟨m.2, rfl, hall m hm⟩)
  refine ⟨ud, sd, ls, r, h1, by rw [h2, hd, List.length_map], h3, fun k m hm => ?_⟩
  have hk' : ud.domains[k]? = some ⟨m.1, domOf m.2, some m.2, null⟩ := by
    rw [hd, List.getElem?_map, hm]; rfl
  obtain ⟨l, l1, l2, t, l3, l4⟩ := h4 k _ m.2 hk' rfl
  obtain ⟨p, p1, _, p3, _⟩ := (C42_statements dim true noscalars ud sd ls h1).2 k _ hk'
  exact ⟨l, l1, l2, ⟨p, p1, p3⟩, t, l3, l4⟩

/-- An empty union map gives a program without statements. -/
theorem C86_empty (o : Ops D S) (noblocks noscalars : Bool) (domOf : S → D) (null : U) (params : List CStr) :
    ∃ ud, run dim sdim (mapCalls domOf null params []) (alloc params.length) = .ok ud ∧
      programLoops o dim noblocks noscalars ud = .ok ([], []) := by
  obtain ⟨ud, r, hd, -⟩ := C86_import (dim := dim) (sdim := sdim) domOf null params []
  refine ⟨ud, r, ?_⟩
  simp [programLoops, hd, makeScats, makeLoops]

/-- Maps to spaces of different dimensions: the program is not built. -/
theorem C86_ranges : ∃ ud : UD (List (List Int)) (List (Bool × Int)) Unit,
    run (fun _ => 1) List.length (mapCalls (fun _ => [[5]]) () [] [(some [83], [(true, 0)]), (some [84], [(true, 0), (true, 1)])])
      (alloc 0) = .ok ud ∧
    (∃ e, programLoops headOps (fun _ => 1) true true ud = .die e) := by
  refine ⟨_, rfl, _, rfl⟩

/-! ## Examples -/

/-- `[N] -> { S[i] -> [i]; T[i] -> [i + 3] }`. -/
example : ∃ ud : UD (List (List Int)) (List (Bool × Int)) Unit,
    run (fun _ => 1) List.length (mapCalls (fun _ => [[5], [6]]) () [[78]] [(some [83], [(true, 0)]), (some [84], [(true, 3)])])
      (alloc 1) = .ok ud ∧
    allOf List.length ud = [some [78], some [105], some [99, 49]] ∧
    (∃ r, programLoops headOps (fun _ => 1) true false ud = .ok r ∧
      r.2.map (fun l => l.dom) = [[[5, 5], [6, 6]], [[8, 5], [9, 6]]]) := by
  refine ⟨_, rfl, by decide, _, rfl, by decide⟩

/-- The hypotheses of `C86_dates_partial` hold of it. -/
example : ∃ ud sd ls, run (fun _ => 1) headOps.nScat (mapCalls (fun _ => [[5], [6]]) () [[78]]
      [(some [83], [(true, 0)]), (some [84], [(true, 3)])]) (alloc 1) = .ok ud ∧
    programLoops headOps (fun _ => 1) true false ud = .ok (sd, ls) ∧ ls.length = 2 := by
  obtain ⟨ud, sd, ls, h1, h2, h3, -⟩ := C86_dates_partial (dim := fun _ => 1) headLaws
    (by
      intro d s y
      simp only [headOps, List.mem_map]
      exact ⟨fun ⟨x, a, b⟩ => ⟨x, a, b.symm⟩, fun ⟨x, a, b⟩ => ⟨x, a, b.symm⟩⟩)
    (by
      intro s i j v hij h
      simp only [headOps] at h ⊢
      rw [List.getElem?_eraseIdx, if_pos hij]
      exact ⟨v, h⟩)
    false (fun _ => [[5], [6]]) () [[78]] [(some [83], [(true, 0)]), (some [84], [(true, 3)])] 1 (by simp)
    (by
      intro m hm
      simp only [List.mem_cons, List.not_mem_nil, or_false] at hm
      rcases hm with rfl | rfl <;> rfl)
  exact ⟨ud, sd, ls, h1, h2, h3⟩

end Verif.Props.ImportMap
