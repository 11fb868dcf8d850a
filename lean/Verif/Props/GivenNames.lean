import Verif.Props.ImportMap
import Verif.Props.ClastExec

/-!
# C87: names given for one kind and default names for the others

No new definitions of the code: the name lists are `makeNames` (source/program.c:865-881, 908-916), the
generated program is `clastCreate` (source/clast.c) with the semantics of `Model/ClastSem.lean`.
-/

namespace Verif.Props.GivenNames
open Verif.Names Verif.UnionDomain Verif.Props.Names Verif.Props.ImportMap

variable {D S U : Type} {sdim : S → Nat}

theorem some_nodup {l : List CStr} : (l.map some).Nodup ↔ l.Nodup :=
  List.nodup_map_iff fun _ _ h => Option.some.inj h

theorem mem_scats {n : Nat} {s : CStr} :
    s ∈ generateItems n (some [99]) (-1) ↔ ∃ k : Nat, k < n ∧ s = numName [99] (1 + k) := by
  unfold generateItems
  simp only [List.mem_map, List.mem_range]
  constructor
  · rintro ⟨i, hi, rfl⟩; exact ⟨i, hi, rfl⟩
  · rintro ⟨i, hi, rfl⟩; exact ⟨i, hi, rfl⟩

theorem chars_scats_disjoint {n m : Nat} {f : Int} : ∀ a ∈ generateItems n none f,
    ∀ b ∈ generateItems m (some [99]) (-1), a ≠ b := by
  intro a ha b hb he
  obtain ⟨i, _, rfl⟩ := mem_chars.1 ha
  obtain ⟨k, _, rfl⟩ := mem_scats.1 hb
  exact numName_ne_char he.symm

/-- **C87, parameters given.** With names for the parameters only, all names of the program differ exactly
    when the given names differ, none is one of `i`, `j`, ... or `c1`, `c2`, ... that the program uses, and
    there are at most 256 iterators. -/
theorem C87_parameters_given (ud : UD D S U) (ps : List CStr) (s : S) (rest : List S)
    (hp : ud.names .param = some (ps.map some)) (hi : ud.names .iter = none) (hs : ud.names .scat = none)
    (hd : ud.domains.filterMap Named.scat = s :: rest) :
    (allOf sdim ud).Nodup ↔ ps.Nodup ∧ ud.n .iter ≤ 256 ∧
      (∀ p ∈ ps, ∀ i : Nat, i < ud.n .iter → p ≠ charName (105 + i)) ∧
      (∀ p ∈ ps, ∀ k : Nat, k < sdim s → p ≠ numName [99] (1 + k)) := by
  simp only [allOf, makeNames, makeScats, hd, hp, hi, hs, Option.getD_some, Option.getD_none]
  rw [← List.map_append, ← List.map_append, some_nodup, List.nodup_append, List.nodup_append,
    chars_nodup_iff]
  constructor
  · rintro ⟨⟨a, b, c⟩, _, d⟩
    exact ⟨a, b, fun p hp i hi => c p hp _ (mem_chars.2 ⟨i, hi, rfl⟩),
      fun p hp k hk => d p (List.mem_append_left _ hp) _ (mem_scats.2 ⟨k, hk, rfl⟩)⟩
  · rintro ⟨a, b, c, d⟩
    refine ⟨⟨a, b, fun p hp q hq => ?_⟩, scat_nodup _ _, fun p hp q hq => ?_⟩
    · obtain ⟨i, hi, rfl⟩ := mem_chars.1 hq
      exact c p hp i hi
    · rcases List.mem_append.1 hp with hp | hp
      · obtain ⟨k, hk, rfl⟩ := mem_scats.1 hq
        exact d p hp k hk
      · exact chars_scats_disjoint p hp q hq

/-- **C87, iterators given.** The same with names for the iterators only: the default names are `M`, `N`, ...
    for the parameters and `c1`, `c2`, ... for the scattering dimensions. -/
theorem C87_iterators_given (ud : UD D S U) (is : List CStr) (s : S) (rest : List S)
    (hp : ud.names .param = none) (hi : ud.names .iter = some (is.map some)) (hs : ud.names .scat = none)
    (hd : ud.domains.filterMap Named.scat = s :: rest) :
    (allOf sdim ud).Nodup ↔ is.Nodup ∧ ud.n .param ≤ 256 ∧
      (∀ q ∈ is, ∀ i : Nat, i < ud.n .param → q ≠ charName (77 + i)) ∧
      (∀ q ∈ is, ∀ k : Nat, k < sdim s → q ≠ numName [99] (1 + k)) := by
  simp only [allOf, makeNames, makeScats, hd, hp, hi, hs, Option.getD_some, Option.getD_none]
  rw [← List.map_append, ← List.map_append, some_nodup, List.nodup_append, List.nodup_append,
    chars_nodup_iff]
  constructor
  · rintro ⟨⟨a, b, c⟩, _, d⟩
    exact ⟨b, a, fun q hq i hi => (c _ (mem_chars.2 ⟨i, hi, rfl⟩) q hq).symm,
      fun q hq k hk => d q (List.mem_append_right _ hq) _ (mem_scats.2 ⟨k, hk, rfl⟩)⟩
  · rintro ⟨a, b, c, d⟩
    refine ⟨⟨b, a, fun p hp q hq => ?_⟩, scat_nodup _ _, fun p hp q hq => ?_⟩
    · obtain ⟨i, hi, rfl⟩ := mem_chars.1 hp
      exact (c q hq i hi).symm
    · rcases List.mem_append.1 hp with hp | hp
      · exact chars_scats_disjoint p hp q hq
      · obtain ⟨k, hk, rfl⟩ := mem_scats.1 hq
        exact d p hp k hk

/-- **C87, scattering given.** With names for the scattering dimensions only: the default names of
    parameters and iterators have to differ among themselves (C32), and from the given names. -/
theorem C87_scattering_given (ud : UD D S U) (ss : List CStr) (s : S) (rest : List S)
    (hp : ud.names .param = none) (hi : ud.names .iter = none) (hs : ud.names .scat = some (ss.map some))
    (hd : ud.domains.filterMap Named.scat = s :: rest) :
    (allOf sdim ud).Nodup ↔ ss.Nodup ∧
      ((ud.n .param ≤ 28 ∧ ud.n .iter ≤ 228) ∨ (ud.n .param = 0 ∧ ud.n .iter ≤ 256) ∨
        (ud.n .iter = 0 ∧ ud.n .param ≤ 256)) ∧
      (∀ q ∈ ss, ∀ i : Nat, i < ud.n .param → q ≠ charName (77 + i)) ∧
      (∀ q ∈ ss, ∀ i : Nat, i < ud.n .iter → q ≠ charName (105 + i)) := by
  have hc := C32_distinct_iff (ud.n .param) (ud.n .iter) 0
  have he : (Verif.Props.Names.allNames (defaultTable (ud.n .param) (ud.n .iter) 0)).Nodup ↔
      (generateItems (ud.n .param) none firstParameter ++
        generateItems (ud.n .iter) none firstIterator).Nodup := by
    simp [Verif.Props.Names.allNames, defaultTable, generateItems]
  simp only [allOf, makeNames, makeScats, hd, hp, hi, hs, Option.getD_some, Option.getD_none]
  rw [← List.map_append, ← List.map_append, some_nodup, List.nodup_append, ← he, hc]
  constructor
  · rintro ⟨a, b, c⟩
    exact ⟨b, a, fun q hq i hi => (c _ (List.mem_append_left _ (mem_chars.2 ⟨i, hi, rfl⟩)) q hq).symm,
      fun q hq i hi => (c _ (List.mem_append_right _ (mem_chars.2 ⟨i, hi, rfl⟩)) q hq).symm⟩
  · rintro ⟨a, b, c, d⟩
    refine ⟨b, a, fun p hp q hq => ?_⟩
    rcases List.mem_append.1 hp with hp | hp
    · obtain ⟨i, hi, rfl⟩ := mem_chars.1 hp
      exact (c q hq i hi).symm
    · obtain ⟨i, hi, rfl⟩ := mem_chars.1 hp
      exact (d q hq i hi).symm

/-- **C87, two kinds given.** With names for two kinds, those of the third kind are the only default ones: all
    names differ exactly when the given names differ from each other and from the default names in use. -/
theorem C87_two_given (ud : UD D S U) (s : S) (rest : List S)
    (hd : ud.domains.filterMap Named.scat = s :: rest) (l1 l2 : List CStr) :
    (ud.names .param = some (l1.map some) → ud.names .iter = some (l2.map some) → ud.names .scat = none →
      ((allOf sdim ud).Nodup ↔ (l1 ++ l2).Nodup ∧
        ∀ q ∈ l1 ++ l2, ∀ k : Nat, k < sdim s → q ≠ numName [99] (1 + k))) ∧
    (ud.names .param = some (l1.map some) → ud.names .scat = some (l2.map some) → ud.names .iter = none →
      ((allOf sdim ud).Nodup ↔ (l1 ++ l2).Nodup ∧ ud.n .iter ≤ 256 ∧
        ∀ q ∈ l1 ++ l2, ∀ i : Nat, i < ud.n .iter → q ≠ charName (105 + i))) ∧
    (ud.names .iter = some (l1.map some) → ud.names .scat = some (l2.map some) → ud.names .param = none →
      ((allOf sdim ud).Nodup ↔ (l1 ++ l2).Nodup ∧ ud.n .param ≤ 256 ∧
        ∀ q ∈ l1 ++ l2, ∀ i : Nat, i < ud.n .param → q ≠ charName (77 + i))) := by
  refine ⟨fun h1 h2 h3 => ?_, fun h1 h2 h3 => ?_, fun h1 h2 h3 => ?_⟩ <;>
    simp only [allOf, makeNames, makeScats, hd, h1, h2, h3, Option.getD_some, Option.getD_none] <;>
    rw [← List.map_append, ← List.map_append, some_nodup]
  · rw [List.nodup_append]
    constructor
    · rintro ⟨a, _, c⟩
      exact ⟨a, fun q hq k hk => c q hq _ (mem_scats.2 ⟨k, hk, rfl⟩)⟩
    · rintro ⟨a, c⟩
      refine ⟨a, scat_nodup _ _, fun q hq r hr => ?_⟩
      obtain ⟨k, hk, rfl⟩ := mem_scats.1 hr
      exact c q hq k hk
  · have hperm : ∀ a b c : List CStr, (a ++ b ++ c).Perm (a ++ c ++ b) := fun a b c => by
      rw [List.append_assoc, List.append_assoc]
      exact List.Perm.append_left a List.perm_append_comm
    rw [(hperm _ _ _).nodup_iff, List.nodup_append, chars_nodup_iff]
    constructor
    · rintro ⟨a, b, c⟩
      exact ⟨a, b, fun q hq i hi => c q hq _ (mem_chars.2 ⟨i, hi, rfl⟩)⟩
    · rintro ⟨a, b, c⟩
      refine ⟨a, b, fun q hq r hr => ?_⟩
      obtain ⟨i, hi, rfl⟩ := mem_chars.1 hr
      exact c q hq i hi
  · rw [List.append_assoc, List.perm_append_comm.nodup_iff, List.nodup_append, chars_nodup_iff]
    constructor
    · rintro ⟨a, b, c⟩
      exact ⟨a, b, fun q hq i hi => c q hq _ (mem_chars.2 ⟨i, hi, rfl⟩)⟩
    · rintro ⟨a, b, c⟩
      refine ⟨a, b, fun q hq r hr => ?_⟩
      obtain ⟨i, hi, rfl⟩ := mem_chars.1 hr
      exact c q hq i hi

-- parameter `P` and iterator `x` given, scattering dimension `c1`
example : ∀ q ∈ [[80]] ++ [[120]], ∀ k : Nat, k < 1 → q ≠ numName [99] (1 + k) :=
  (((C87_two_given (sdim := id) (⟨fun _ => 1, fun t => match t with
      | .param => some [some [80]] | .iter => some [some [120]] | .scat => none,
    [⟨none, 1, some 1, ()⟩]⟩ : UD Nat Nat Unit) 1 [] rfl [[80]] [[120]]).1 rfl rfl rfl).1 (by decide)).2

/-- **C87, no scattering.** Without a scattering there are no scattering names, also if some have been given:
    only parameters and iterators can clash. -/
theorem C87_no_scattering (ud : UD D S U) (hd : ud.domains.filterMap Named.scat = []) (ps is : List CStr) :
    (ud.names .param = some (ps.map some) → ud.names .iter = none →
      ((allOf sdim ud).Nodup ↔ ps.Nodup ∧ ud.n .iter ≤ 256 ∧
        ∀ p ∈ ps, ∀ i : Nat, i < ud.n .iter → p ≠ charName (105 + i))) ∧
    (ud.names .param = none → ud.names .iter = some (is.map some) →
      ((allOf sdim ud).Nodup ↔ is.Nodup ∧ ud.n .param ≤ 256 ∧
        ∀ q ∈ is, ∀ i : Nat, i < ud.n .param → q ≠ charName (77 + i))) ∧
    (ud.names .param = some (ps.map some) → ud.names .iter = some (is.map some) →
      ((allOf sdim ud).Nodup ↔ (ps ++ is).Nodup)) := by
  refine ⟨fun h1 h2 => ?_, fun h1 h2 => ?_, fun h1 h2 => ?_⟩ <;>
    simp only [allOf, makeNames, makeScats, hd, h1, h2, Option.getD_some, Option.getD_none, List.append_nil] <;>
    rw [← List.map_append, some_nodup]
  · rw [List.nodup_append, chars_nodup_iff]
    constructor
    · rintro ⟨a, b, c⟩
      exact ⟨a, b, fun q hq i hi => c q hq _ (mem_chars.2 ⟨i, hi, rfl⟩)⟩
    · rintro ⟨a, b, c⟩
      refine ⟨a, b, fun q hq r hr => ?_⟩
      obtain ⟨i, hi, rfl⟩ := mem_chars.1 hr
      exact c q hq i hi
  · rw [List.nodup_append, chars_nodup_iff]
    constructor
    · rintro ⟨a, b, c⟩
      exact ⟨b, a, fun q hq i hi => (c _ (mem_chars.2 ⟨i, hi, rfl⟩) q hq).symm⟩
    · rintro ⟨a, b, c⟩
      refine ⟨b, a, fun r hr q hq => ?_⟩
      obtain ⟨i, hi, rfl⟩ := mem_chars.1 hr
      exact (c q hq i hi).symm

-- one statement without scattering, parameter `P`; the scattering name `P` does not count
example : (allOf id (⟨fun _ => 1, fun t => match t with
      | .param => some [some [80]] | .scat => some [some [80]] | .iter => none,
    [⟨none, 1, none, ()⟩]⟩ : UD Nat Nat Unit)).Nodup :=
  ((C87_no_scattering (sdim := id) (⟨fun _ => 1, fun t => match t with
      | .param => some [some [80]] | .scat => some [some [80]] | .iter => none,
    [⟨none, 1, none, ()⟩]⟩ : UD Nat Nat Unit) rfl [[80]] []).1 rfl rfl).2 (by
      refine ⟨by simp, by simp, ?_⟩
      intro p hp i hi
      obtain rfl : p = [80] := by simpa using hp
      obtain rfl : i = 0 := by simpa using hi
      decide)

/-- **C87 is false**: an iterator called `M` and a scattering dimension called `i` clash with the default
    names of the first parameter and the first iterator. -/
theorem C87_clash : ∃ (u1 u2 : UD Nat Nat Unit),
    u1.names .iter = some [some [77]] ∧ u1.names .param = none ∧ u1.names .scat = none ∧
    ¬ (allOf id u1).Nodup ∧
    u2.names .scat = some [some [105]] ∧ u2.names .param = none ∧ u2.names .iter = none ∧
    ¬ (allOf id u2).Nodup := by
  refine ⟨⟨fun _ => 1, fun t => if t = .iter then some [some [77]] else none, [⟨none, 1, some 1, ()⟩]⟩,
    ⟨fun _ => 1, fun t => if t = .scat then some [some [105]] else none, [⟨none, 1, some 1, ()⟩]⟩,
    rfl, rfl, rfl, ?_, rfl, rfl, rfl, ?_⟩ <;> decide

-- a union domain to which the theorems apply, with different names: parameter `P`, iterator `i`, scattering `c1`
example : (allOf id (⟨fun _ => 1, fun t => if t = .param then some [some [80]] else none,
    [⟨none, 1, some 1, ()⟩]⟩ : UD Nat Nat Unit)).Nodup :=
  (C87_parameters_given (sdim := id) (ud := ⟨fun _ => 1, fun t => if t = .param then some [some [80]] else none,
    [⟨none, 1, some 1, ()⟩]⟩) [[80]] 1 [] rfl rfl rfl rfl).2 (by
      refine ⟨by simp, by simp, ?_, ?_⟩
      · intro p hp i hi
        obtain rfl : p = [80] := by simpa using hp
        obtain rfl : i = 0 := by simpa using hi
        decide
      · intro p hp k hk
        obtain rfl : p = [80] := by simpa using hp
        obtain rfl : k = 0 := by simpa using hk
        decide)

-- the same for the iterator `x`, and for the scattering dimension `t`: the names differ, hence are not default ones
example : ∀ q ∈ [[120]], ∀ k : Nat, k < 1 → q ≠ numName [99] (1 + k) :=
  ((C87_iterators_given (sdim := id) (⟨fun _ => 1, fun t => if t = .iter then some [some [120]] else none,
    [⟨none, 1, some 1, ()⟩]⟩ : UD Nat Nat Unit) [[120]] 1 [] rfl rfl rfl rfl).1 (by decide)).2.2.2
example : ∀ q ∈ [[116]], ∀ i : Nat, i < 1 → q ≠ charName (105 + i) :=
  ((C87_scattering_given (sdim := id) (⟨fun _ => 1, fun t => if t = .scat then some [some [116]] else none,
    [⟨none, 1, some 1, ()⟩]⟩ : UD Nat Nat Unit) [[116]] 1 [] rfl rfl rfl rfl).1 (by decide)).2.2.2

end Verif.Props.GivenNames

/-! ## What a clash does to the generated program -/

namespace Verif.Props.GivenNames
open Verif.IntOps Verif.Clast Verif.Bound Verif.ClastGen Verif.Props.Guards Verif.Props.ClastExec

/-- The names of a program with one iterator and one parameter, both called `i`. -/
def clashN : Verif.ClastGen.Names := ⟨0, 1, fun _ => "i", fun _ => "i"⟩
def clashC : Ctx := { exC with nm := clashN }
/-- The loop `0 <= iterator <= parameter` around statement 7. -/
def clashTree : List Loop :=
  [.mk ⟨0, [], []⟩ none false [] [.mk exD1 none false [] [.mk ⟨1, [], []⟩ none false [7] []]]]
/-- `for (i=0;i<=i;i++) S7(i)` -/
def clashProg : List Stmt :=
  [.for_ "i" (some (.red .max [.cst 0])) (some (.red .min [.red .sum [.term 1 (.name "i")]])) 1
    [.user 7 [.term 1 (.name "i")]]]

theorem clash_for : ∀ {it ub s body env tr env'}, ForExec it ub s body env tr env' →
    (∀ e : Env, ub.eval e = e it) → False
  | _, _, _, _, _, _, _, .done h, hu => h (le_of_eq (hu _).symm)
  | _, _, _, _, _, _, _, .step _ _ h, hu => clash_for h hu

/-- **C87, consequence.** A parameter called like the iterator gives `for (i=0;i<=i;i++)`, which has no
    terminating execution, although for the parameter value 1 the statement has the two instances 0, 1. -/
theorem C87_wrong_program :
    clastCreate clashC gmpCmp clashTree = some clashProg ∧
    (∀ x, TreeRun clashN (fun _ => 1) 0 clashTree x [⟨7, [0]⟩, ⟨7, [1]⟩]) ∧
    ∀ env tr env', ¬ Exec clashProg env tr env' := by
  refine ⟨rfl, fun x => ?_, fun env tr env' h => ?_⟩
  · have leaf : ∀ (x : Nat → Int), TreeRun clashN (fun _ => 1) 2
        [.mk ⟨1, [], []⟩ none false [7] []] x [⟨7, [x 0]⟩] := by
      intro x
      have h := LoopRun.leaf (nm := clashN) (p := fun _ => 1) (L := 2) (D := ⟨1, [], []⟩) (st := none)
        (otl := false) (block := [7]) (inner := []) (x := x) (tr := []) (by simp)
        (by unfold Dom.mem; simp) .nil
      exact .cons h .nil
    have in1 : ∀ (v : Int), (exD1.mem (Function.update x (1 - 1) v) (fun _ => 1) ∧
        strideOk none (1 - 1) clashN.nPar (Function.update x (1 - 1) v) (fun _ => 1)) ↔
        0 ≤ v ∧ v ≤ 1 := by
      intro v
      simp [Dom.mem, exD1, Row.holds, Row.val, dotFrom, Dom.pt, strideOk, Function.update]
    have h := LoopRun.scan (nm := clashN) (p := fun _ => 1) (L := 1) (D := exD1) (st := none)
      (otl := false) (block := []) (inner := [.mk ⟨1, [], []⟩ none false [7] []])
      (x := x) (vals := [0, 1]) (by omega) (by decide) (by decide)
      (fun v => by rw [in1]; simp; omega) (.cons (leaf _) (.cons (leaf _) .nil))
    have h0 := LoopRun.leaf (nm := clashN) (p := fun _ => 1) (L := 0) (D := ⟨0, [], []⟩) (st := none)
        (otl := false) (block := []) (x := x) (by simp) (by unfold Dom.mem; simp) (TreeRun.cons h .nil)
    have := TreeRun.cons h0 .nil
    unfold clashTree
    simpa [blockEvents, Function.update] using this
  · unfold clashProg at h
    cases h with
    | for_ hf _ =>
      refine clash_for hf fun e => ?_
      simp [Expr.eval, evalList, RedType.eval]

end Verif.Props.GivenNames
