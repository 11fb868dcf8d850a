import Verif.Model.UnionDomain
import Verif.Props.LoopBlock
import Mathlib.Data.List.Induction

/-!
# C42: union domains

The specification speaks about the sequence of calls only.
-/

namespace Verif.Props.UnionDomain
open Verif.Names Verif.Program Verif.UnionDomain

variable {D S U : Type} {dim : D → Nat} {sdim : S → Nat}

/-! ## Specification -/

/-- The domain added by a call. -/
def Call.added : Call D S U → Option (Named D S U)
  | .add a => some a
  | .setName _ _ _ => none

/-- The domains added by a sequence of calls, in order. -/
def adds (cs : List (Call D S U)) : List (Named D S U) := cs.filterMap Call.added

/-- A call that sets a name of type `t`. -/
def Call.names (t : Ty) : Call D S U → Bool
  | .add _ => false
  | .setName ty _ _ => decide (ty = some t)

/-- The name a call gives to dimension `i` of type `t`. -/
def Call.nameOf (t : Ty) (i : Nat) : Call D S U → Option CStr
  | .add _ => none
  | .setName ty j name => if ty = some t ∧ j = i then some name else none

/-- The largest of some numbers, 0 if there are none. -/
def largest (l : List Nat) : Nat := l.foldr Nat.max 0

/-- How many dimensions of a type there are after some calls. -/
def count (dim : D → Nat) (sdim : S → Nat) (nbPar : Nat) (cs : List (Call D S U)) : Ty → Nat
  | .param => nbPar
  | .iter => largest ((adds cs).map fun a => dim a.dom)
  | .scat => largest ((adds cs).filterMap fun a => a.scat.map sdim)

/-- The last name given to a dimension. -/
def lastName (t : Ty) (i : Nat) (cs : List (Call D S U)) : Option CStr :=
  (cs.filterMap (Call.nameOf t i)).getLast?

/-- What is wrong with a call made after `cs`, if anything. -/
def misuse (dim : D → Nat) (sdim : S → Nat) (nbPar : Nat) (cs : List (Call D S U)) :
    Call D S U → Option Err
  | .add _ =>
    if cs.any (Call.names .iter) then some .iterNamesFirst
    else if cs.any (Call.names .scat) then some .scatNamesFirst else none
  | .setName none _ _ => some .badType
  | .setName (some t) i _ =>
    if 0 ≤ i ∧ i < count dim sdim nbPar cs t then none else some .range

/-- The names of one type after some calls: nothing if none was set, otherwise the last name given to
    each dimension. -/
def namesAfter (dim : D → Nat) (sdim : S → Nat) (nbPar : Nat) (cs : List (Call D S U)) (t : Ty) :
    Option (List (Option CStr)) :=
  if cs.any (Call.names t) then
    some ((List.range (count dim sdim nbPar cs t)).map fun i => lastName t i cs)
  else none

/-- No call is a misuse. -/
def Proper (dim : D → Nat) (sdim : S → Nat) (nbPar : Nat) (cs : List (Call D S U)) : Prop :=
  ∀ pre c post, cs = pre ++ c :: post → misuse dim sdim nbPar pre c = none

/-! ## Proofs -/

theorem run_append (cs ds : List (Call D S U)) : ∀ ud : UD D S U, run dim sdim (cs ++ ds) ud =
    match run dim sdim cs ud with
    | .ok u => run dim sdim ds u
    | .error e => .error e := by
  induction cs with
  | nil => intro ud; rfl
  | cons c cs ih =>
    intro ud
    simp only [List.cons_append, run]
    cases step dim sdim ud c with
    | error e => rfl
    | ok u => exact ih u

theorem largest_append (l : List Nat) (a : Nat) : largest (l ++ [a]) = max (largest l) a := by
  induction l with
  | nil => show max a 0 = max 0 a; omega
  | cons b l ih =>
    show max b (largest (l ++ [a])) = max (max b (largest l)) a
    rw [ih]; omega

theorem ite_gt (a b : Nat) : (if a > b then a else b) = max b a := by split_ifs <;> omega

/-- The state after proper calls. -/
def stateAfter (dim : D → Nat) (sdim : S → Nat) (nbPar : Nat) (cs : List (Call D S U)) : UD D S U where
  n := count dim sdim nbPar cs
  names := namesAfter dim sdim nbPar cs
  domains := adds cs

theorem count_snoc_add (nbPar : Nat) (cs : List (Call D S U)) (a : Named D S U) :
    count dim sdim nbPar (cs ++ [.add a]) = grow dim sdim a (count dim sdim nbPar cs) := by
  funext t
  have hadds : adds (cs ++ [.add a]) = adds cs ++ [a] := by
    simp [adds, List.filterMap_append, Call.added]
  cases t with
  | param => rfl
  | iter =>
    simp only [count, grow, hadds, List.map_append, List.map_cons, List.map_nil, largest_append]
    exact (ite_gt _ _).symm
  | scat =>
    simp only [count, grow, hadds, List.filterMap_append, List.filterMap_cons,
      List.filterMap_nil]
    cases a.scat with
    | none => simp
    | some s =>
      simp only [Option.map_some, largest_append]
      exact (ite_gt _ _).symm

theorem count_snoc_name (nbPar : Nat) (cs : List (Call D S U)) (ty : Option Ty) (i : Int) (nm : CStr) :
    count dim sdim nbPar (cs ++ [.setName ty i nm]) = count dim sdim nbPar cs := by
  funext t
  have hadds : adds (cs ++ [.setName ty i nm]) = adds cs := by
    simp [adds, List.filterMap_append, Call.added]
  cases t <;> simp [count, hadds]

theorem lastName_snoc_name (t t' : Ty) (j : Nat) (i : Int) (cs : List (Call D S U)) (nm : CStr) :
    lastName t j (cs ++ [.setName (some t') i nm]) =
      if t' = t ∧ i = j then some nm else lastName t j cs := by
  simp only [lastName, List.filterMap_append, List.filterMap_cons, List.filterMap_nil, Call.nameOf,
    Option.some.injEq]
  split_ifs with h
  · simp
  · simp

theorem step_state (nbPar : Nat) (cs : List (Call D S U)) (c : Call D S U) :
    step dim sdim (stateAfter dim sdim nbPar cs) c =
      match misuse dim sdim nbPar cs c with
      | none => .ok (stateAfter dim sdim nbPar (cs ++ [c]))
      | some e => .error e := by
  cases c with
  | add a =>
    simp only [step, addDomain, misuse, stateAfter, namesAfter]
    by_cases h1 : cs.any (Call.names .iter) = true
    · simp [h1]
    · by_cases h2 : cs.any (Call.names .scat) = true
      · simp [h1, h2]
      · simp only [h1, h2, Bool.false_eq_true, if_false, Option.isSome_none]
        congr 1
        have hn : ∀ t, (cs ++ [Call.add a]).any (Call.names t) = cs.any (Call.names t) := by
          intro t; simp [List.any_append, Call.names]
        simp only [UD.mk.injEq]
        refine ⟨(count_snoc_add nbPar cs a).symm, ?_, ?_⟩
        · funext t
          cases t with
          | param =>
            have : ∀ i, lastName .param i (cs ++ [.add a]) = lastName .param i cs := by
              intro i; simp [lastName, List.filterMap_append, Call.nameOf]
            simp only [this, namesAfter, hn, count_snoc_add]
            rfl
          | iter => simp only [namesAfter, hn, h1]; rfl
          | scat => simp only [namesAfter, hn, h2]; rfl
        · simp [adds, List.filterMap_append, Call.added]
  | setName ty i nm =>
    cases ty with
    | none => rfl
    | some t =>
      simp only [step, setName, misuse]
      by_cases hr : 0 ≤ i ∧ i < (count dim sdim nbPar cs t : Int)
      · rw [if_pos hr, if_neg (by simp only [stateAfter]; omega)]
        simp only
        congr 1
        have hn : ∀ t', (cs ++ [Call.setName (some t) i nm]).any (Call.names t') =
            (cs.any (Call.names t') || decide (t = t')) := by
          intro t'; simp [List.any_append, Call.names]
        simp only [stateAfter, UD.mk.injEq, true_and]
        refine ⟨(count_snoc_name nbPar cs (some t) i nm).symm, ?_, ?_⟩
        · funext t'
          simp only [namesAfter, hn, count_snoc_name]
          by_cases ht : t' = t
          · subst ht
            simp only [if_true, decide_true, Bool.or_true, Option.some.injEq]
            have hlen : ∀ l : List (Option CStr), l.length = count dim sdim nbPar cs t' →
                (∀ j : Nat, j < count dim sdim nbPar cs t' → l[j]? = some (lastName t' j cs)) →
                l.set i.toNat (some nm) = (List.range (count dim sdim nbPar cs t')).map
                  (fun j => lastName t' j (cs ++ [.setName (some t') i nm])) := by
              intro l hl hv
              apply List.ext_getElem?
              intro j
              rw [List.getElem?_set, List.getElem?_map]
              by_cases hj : j < count dim sdim nbPar cs t'
              · rw [List.getElem?_range hj]
                simp only [Option.map_some, lastName_snoc_name]
                by_cases hij : i.toNat = j
                · have : i = j := by omega
                  simp [hij, this, hl, hj]
                · have : ¬ i = j := by omega
                  simp [hij, this, hv j hj]
              · have h1 : (List.range (count dim sdim nbPar cs t'))[j]? = none := by
                  rw [List.getElem?_eq_none_iff, List.length_range]; omega
                have h2 : l[j]? = none := by rw [List.getElem?_eq_none_iff]; omega
                rw [h1, h2]
                have : i.toNat ≠ j := by omega
                simp [this]
            by_cases hany : cs.any (Call.names t') = true
            · simp only [hany, if_true, Option.getD_some]
              apply hlen
              · simp
              · intro j hj
                rw [List.getElem?_map, List.getElem?_range hj]; rfl
            · simp only [hany, Bool.false_eq_true, if_false, Option.getD_none]
              apply hlen
              · simp
              · intro j hj
                rw [List.getElem?_replicate, if_pos hj]
                congr 1
                unfold lastName
                symm
                rw [List.getLast?_eq_none_iff, List.filterMap_eq_nil_iff]
                intro c hc
                cases c with
                | add a => rfl
                | setName ty k nm' =>
                  simp only [Call.nameOf]
                  rw [if_neg]
                  rintro ⟨rfl, _⟩
                  exact hany (List.any_eq_true.2 ⟨_, hc, by simp [Call.names]⟩)
          · rw [if_neg ht]
            have h2 : decide (t = t') = false := by simpa using fun h => ht h.symm
            rw [h2, Bool.or_false]
            have : ∀ j, lastName t' j (cs ++ [.setName (some t) i nm]) = lastName t' j cs := by
              intro j
              rw [lastName_snoc_name, if_neg]
              rintro ⟨h, _⟩; exact ht h.symm
            simp only [this]
        · simp [adds, List.filterMap_append, Call.added]
      · rw [if_neg hr, if_pos (by simp only [stateAfter]; omega)]

theorem alloc_state (nbPar : Nat) : (alloc nbPar : UD D S U) = stateAfter dim sdim nbPar [] := by
  simp only [alloc, stateAfter, UD.mk.injEq]
  refine ⟨?_, ?_, rfl⟩
  · funext t; cases t <;> rfl
  · funext t; rfl

theorem run_proper (nbPar : Nat) (cs : List (Call D S U)) (h : Proper dim sdim nbPar cs) :
    run dim sdim cs (alloc nbPar) = .ok (stateAfter dim sdim nbPar cs) := by
  induction cs using List.reverseRecOn with
  | nil => rw [alloc_state (dim := dim) (sdim := sdim)]; rfl
  | append_singleton cs c ih =>
    have hp : Proper dim sdim nbPar cs := by
      intro pre c' post he
      exact h pre c' (post ++ [c]) (by rw [he]; simp)
    rw [run_append, ih hp]
    simp only [run, step_state, h cs c [] rfl]

/-- **C42, calls.**  For every sequence of calls: if no call is a misuse, then the union domain has the
    added domains in call order, with the data given; as many dimensions of each type as the largest
    domain or scattering needs; and for each dimension the last name given to it.  Otherwise the program
    stops at the first misuse with its message: adding a domain after an iterator or scattering name
    was set, an invalid type, an index out of range. -/
theorem C42_calls (nbPar : Nat) (cs : List (Call D S U)) :
    (Proper dim sdim nbPar cs → ∃ ud, run dim sdim cs (alloc nbPar) = .ok ud ∧ ud.domains = adds cs ∧
      (∀ t, ud.n t = count dim sdim nbPar cs t) ∧ ∀ t, ud.names t = namesAfter dim sdim nbPar cs t) ∧
    (∀ pre c post e, cs = pre ++ c :: post → Proper dim sdim nbPar pre →
      misuse dim sdim nbPar pre c = some e → run dim sdim cs (alloc nbPar) = .error e) ∧
    (¬ Proper dim sdim nbPar cs → ∃ e, run dim sdim cs (alloc nbPar) = .error e) := by
  have h2 : ∀ pre c post e, cs = pre ++ c :: post → Proper dim sdim nbPar pre →
      misuse dim sdim nbPar pre c = some e → run dim sdim cs (alloc nbPar) = .error e := by
    intro pre c post e he hp hm
    rw [he, run_append, run_proper nbPar pre hp]
    simp only [run, step_state, hm]
  refine ⟨fun h => ⟨_, run_proper nbPar cs h, rfl, fun _ => rfl, fun _ => rfl⟩, h2, ?_⟩
  intro hn
  -- the first misuse
  have key : ∀ (cs : List (Call D S U)), ¬ Proper dim sdim nbPar cs → ∃ pre c post e,
      cs = pre ++ c :: post ∧ Proper dim sdim nbPar pre ∧ misuse dim sdim nbPar pre c = some e := by
    intro cs
    induction cs using List.reverseRecOn with
    | nil => intro h; exact absurd (by intro pre c post he; simp at he) h
    | append_singleton cs c ih =>
      intro h
      by_cases hp : Proper dim sdim nbPar cs
      · refine ⟨cs, c, [], ?_⟩
        cases hm : misuse dim sdim nbPar cs c with
        | some e => exact ⟨e, rfl, hp, rfl⟩
        | none =>
          exfalso; apply h
          intro pre c' post he
          rcases List.eq_nil_or_concat post with rfl | ⟨post', x, rfl⟩
          · have := List.append_inj' he rfl
            obtain ⟨rfl, h2⟩ := this
            simp only [List.cons.injEq, and_true] at h2
            subst h2; exact hm
          · have he' : cs ++ [c] = (pre ++ c' :: post') ++ [x] := by rw [he]; simp
            have := List.append_inj' he' rfl
            exact hp pre c' post' this.1
      · obtain ⟨pre, c', post, e, he, h1, h3⟩ := ih hp
        exact ⟨pre, c', post ++ [c], e, by rw [he]; simp, h1, h3⟩
  obtain ⟨pre, c, post, e, he, hp, hm⟩ := key cs hn
  exact ⟨e, h2 pre c post e he hp hm⟩

/-- Two domains of dimensions 2 and 3, a name for the third iterator, set twice. -/
def exCalls : List (Call Nat Nat Unit) :=
  [.add ⟨some [83], 2, some 1, ()⟩, .setName (some .param) 0 [78], .add ⟨none, 3, some 1, ()⟩,
   .setName (some .iter) 2 [107], .setName (some .iter) 2 [120]]

example : (run id id exCalls (alloc 1)).toOption.map (fun ud => (ud.domains.map Named.dom, ud.n .iter,
    ud.names .iter, ud.names .param, ud.names .scat)) =
    some ([2, 3], 3, some [none, none, some [120]], some [some [78]], none) := rfl
example : (run id id (exCalls ++ [.add ⟨none, 1, none, ()⟩]) (alloc 1)).toOption.isNone = true := by decide
example : misuse id id 1 exCalls (.add ⟨none, 1, none, ()⟩) = some .iterNamesFirst := by decide

/-- **C42, names.**  After any proper call sequence the program has one name per parameter and iterator:
    the names given when one of that type was given (a dimension never named has none), otherwise the
    default ones.  Scattering dimensions have names only if a domain has a scattering; the default ones
    are as many as the dimensions of the first scattering. -/
theorem C42_names (nbPar : Nat) (cs : List (Call D S U)) (h : Proper dim sdim nbPar cs) :
    ∃ ud, run dim sdim cs (alloc nbPar) = .ok ud ∧
      (∀ t, t ≠ .scat ∨ (∃ a ∈ adds cs, a.scat ≠ none) → cs.any (Call.names t) = true →
        (makeNames sdim ud t).length = count dim sdim nbPar cs t ∧
        ∀ i : Nat, i < count dim sdim nbPar cs t → (makeNames sdim ud t)[i]? = some (lastName t i cs)) ∧
      (cs.any (Call.names .param) = false → (makeNames sdim ud .param).length = nbPar ∧
        ∀ i : Nat, i < nbPar → (makeNames sdim ud .param)[i]? = some (some (charName (77 + i)))) ∧
      (cs.any (Call.names .iter) = false → (makeNames sdim ud .iter).length = count dim sdim nbPar cs .iter ∧
        ∀ i : Nat, i < count dim sdim nbPar cs .iter →
          (makeNames sdim ud .iter)[i]? = some (some (charName (105 + i)))) ∧
      ((∀ a ∈ adds cs, a.scat = none) → makeNames sdim ud .scat = []) ∧
      (∀ s rest, (adds cs).filterMap Named.scat = s :: rest → cs.any (Call.names .scat) = false →
        (makeNames sdim ud .scat).length = sdim s ∧
        ∀ i : Nat, i < sdim s → (makeNames sdim ud .scat)[i]? = some (some (numName [99] (1 + i)))) := by
  refine ⟨_, run_proper nbPar cs h, ?_, ?_, ?_, ?_, ?_⟩
  · intro t ht hn
    have e : makeNames sdim (stateAfter dim sdim nbPar cs) t =
        (List.range (count dim sdim nbPar cs t)).map (fun i => lastName t i cs) := by
      have hn' : (stateAfter dim sdim nbPar cs).names t =
          some ((List.range (count dim sdim nbPar cs t)).map (fun i => lastName t i cs)) := by
        simp only [stateAfter, namesAfter, hn, if_true]
      cases t with
      | param => simp only [makeNames, hn', Option.getD_some]
      | iter => simp only [makeNames, hn', Option.getD_some]
      | scat =>
        obtain ⟨a, ha, hs⟩ := ht.resolve_left (by simp)
        obtain ⟨s, hs⟩ := Option.ne_none_iff_exists'.1 hs
        have hm : s ∈ makeScats (stateAfter dim sdim nbPar cs).domains := List.mem_filterMap.2 ⟨a, ha, hs⟩
        simp only [makeNames]
        split
        · next h0 => simp [h0] at hm
        · simp only [hn', Option.getD_some]
    rw [e]
    refine ⟨by simp, fun i hi => ?_⟩
    rw [List.getElem?_map, List.getElem?_range hi]
    rfl
  · intro hn
    have hn' : (stateAfter dim sdim nbPar cs).names .param = none := by
      simp only [stateAfter, namesAfter, hn, Bool.false_eq_true, if_false]
    have hc : (stateAfter dim sdim nbPar cs).n .param = nbPar := rfl
    simp only [makeNames, hn', Option.getD_none, hc, generateItems, firstParameter]
    refine ⟨by simp, fun i hi => ?_⟩
    rw [List.getElem?_map, List.getElem?_map, List.getElem?_range hi]
    rfl
  · intro hn
    have hn' : (stateAfter dim sdim nbPar cs).names .iter = none := by
      simp only [stateAfter, namesAfter, hn, Bool.false_eq_true, if_false]
    have hc : (stateAfter dim sdim nbPar cs).n .iter = count dim sdim nbPar cs .iter := rfl
    simp only [makeNames, hn', Option.getD_none, hc, generateItems, firstIterator]
    refine ⟨by simp, fun i hi => ?_⟩
    rw [List.getElem?_map, List.getElem?_map, List.getElem?_range hi]
    rfl
  · intro hn
    have : makeScats (stateAfter dim sdim nbPar cs).domains = [] := by
      refine List.filterMap_eq_nil_iff.2 fun a ha => hn a ha
    simp only [makeNames, this]
  · intro s rest hs hn
    have hs' : makeScats (stateAfter dim sdim nbPar cs).domains = s :: rest := hs
    have hn' : (stateAfter dim sdim nbPar cs).names .scat = none := by
      simp only [stateAfter, namesAfter, hn, Bool.false_eq_true, if_false]
    simp only [makeNames, hs', hn', Option.getD_none, generateItems]
    refine ⟨by simp, fun i hi => ?_⟩
    rw [List.getElem?_map, List.getElem?_map, List.getElem?_range hi]
    rfl

example : (run id id exCalls (alloc 1)).toOption.map (fun ud => (makeNames id ud .iter, makeNames id ud .scat)) =
    some ([none, none, some [120]], [some [99, 49]]) := rfl

/-! ## The loops of the program -/

variable {o : Ops D S}

theorem makeLoops_get (dim : D → Nat) : ∀ (as : List (Named D S U)) (i k : Nat),
    (makeLoops dim i as)[k]? = (as[k]?).map fun a => ⟨a.dom, i + k + 1, a.name, a.usr, dim a.dom⟩
  | [], i, k => by simp [makeLoops]
  | a :: as, i, 0 => by simp [makeLoops]
  | a :: as, i, k + 1 => by
    simp only [makeLoops, List.getElem?_cons_succ, makeLoops_get dim as (i + 1) k]
    have : i + 1 + k + 1 = i + (k + 1) + 1 := by omega
    rw [this]

theorem makeLoops_length (dim : D → Nat) : ∀ (as : List (Named D S U)) (i : Nat),
    (makeLoops dim i as).length = as.length
  | [], i => rfl
  | a :: as, i => by simp [makeLoops, makeLoops_length dim as (i + 1)]

theorem blockGo_stmts : ∀ (rest done : List (Item D S)) (start : Item D S) (rd : D) (rs : S),
    (blockGo o done start rd rs rest).flatMap Item.stmts =
      done.reverse.flatMap Item.stmts ++ start.stmts ++ rest.flatMap Item.stmts
  | [], done, start, rd, rs => by simp [blockGo]
  | l :: rest, done, start, rd, rs => by
    unfold blockGo
    split_ifs
    · rw [blockGo_stmts rest]; simp
    · rw [blockGo_stmts rest]; simp

theorem programBlock_stmts (items : List (Item D S)) :
    (programBlock o items).flatMap Item.stmts = items.flatMap Item.stmts := by
  cases items with
  | nil => rfl
  | cons a as => simp [programBlock, blockGo_stmts]

theorem scatterGo_length {n : Nat} : ∀ {ds : List D} {ss : List S} {r : List D},
    scatterGo o n ds ss = .ok r → r.length = ds.length
  | [], ss, r, h => by
    cases ss <;> (simp only [scatterGo, Except.ok.injEq] at h; rw [← h])
  | d :: ds, [], r, h => by simp only [scatterGo, Except.ok.injEq] at h; rw [← h]
  | d :: ds, s :: ss, r, h => by
    unfold scatterGo at h
    split_ifs at h with h1
    cases hr : scatterGo o n ds ss with
    | error e => rw [hr] at h; simp at h
    | ok r' =>
      rw [hr] at h
      simp only [Except.ok.injEq] at h
      rw [← h, List.length_cons, scatterGo_length hr, List.length_cons]

theorem scatterAll_length {ds : List D} {ss : List S} {r : List D} (h : scatterAll o ds ss = .ok r) :
    r.length = ds.length := by
  cases ss with
  | nil => simp only [scatterAll, Except.ok.injEq] at h; rw [← h]
  | cons s ss => exact scatterGo_length h

theorem zipWith_stmts {α : Type} (f : α → List Nat → SItem D) (hf : ∀ a b, (f a b).stmts = b) :
    ∀ (as : List α) (bs : List (List Nat)), as.length = bs.length →
      (List.zipWith f as bs).flatMap SItem.stmts = bs.flatten
  | [], [], _ => rfl
  | [], _ :: _, h => by simp at h
  | _ :: _, [], h => by simp at h
  | a :: as, b :: bs, h => by
    rw [List.zipWith_cons_cons, List.flatMap_cons, hf, zipWith_stmts f hf as bs (by simpa using h)]
    rfl

theorem extractScalars_length {n : Nat} {ss : List S} {sd : List Nat} {rs : List (List Int × S)}
    (h : extractScalars o n ss = some (sd, rs)) : rs.length = ss.length := by
  unfold extractScalars at h
  dsimp only at h
  split_ifs at h
  · rw [Option.map_eq_some_iff] at h
    obtain ⟨r, hr, he⟩ := h
    simp only [Prod.mk.injEq] at he
    rw [← he.2]
    exact (Verif.Props.Program.mapM_getElem? hr).1.symm
  · simp only [Option.some.injEq, Prod.mk.injEq] at h
    rw [← h.2]; simp

theorem assemble_stmts {blocks : List (Item D S)} {rs : List (List Int × S)} {ls : List (SItem D)}
    (hl : rs.length = blocks.length) (h : assemble o blocks rs = .ok ls) :
    ls.flatMap SItem.stmts = blocks.flatMap Item.stmts := by
  unfold assemble at h
  cases hs : scatterAll o (blocks.map Item.dom) (rs.map Prod.snd) with
  | error e => rw [hs] at h; simp at h
  | ok ds =>
    rw [hs] at h
    simp only [Except.ok.injEq] at h
    rw [← h, zipWith_stmts _ (fun _ _ => rfl)]
    · rw [List.flatMap_def]
    · have := scatterAll_length hs
      simp [this, hl]

theorem loopBlock_stmts (hasScal : Bool) (sd : List Nat) (ls : List (SItem D)) :
    (loopBlock o hasScal sd ls).flatMap SItem.stmts = ls.flatMap SItem.stmts := by
  obtain ⟨gs, e1, e2, e3⟩ := Verif.Props.LoopBlock.loopBlock_groups (o := o) hasScal sd ls
  rw [e1, ← e2]
  clear e1 e2 e3
  induction gs with
  | nil => rfl
  | cons p gs ih =>
    simp only [List.map_cons, List.flatMap_cons, List.flatMap_append, ih, Verif.Props.LoopBlock.blockOf]

theorem numbers_makeLoops (dim : D → Nat) (as : List (Named D S U)) :
    (makeLoops dim 0 as).map PLoop.number = (List.range as.length).map (· + 1) := by
  apply List.ext_getElem?
  intro k
  rw [List.getElem?_map, makeLoops_get, List.getElem?_map]
  by_cases hk : k < as.length
  · rw [List.getElem?_range hk, List.getElem?_eq_getElem hk]
    simp
  · rw [List.getElem?_eq_none (by omega), List.getElem?_eq_none (by simp; omega)]
    rfl

/-- **C42, statements.**  Whatever the options, when a loop list is built, the statements of its blocks,
    read in order, are numbers 1 to the number of domains, each once and in the order of the domains;
    and the loop made for the k-th domain has its name and user data. -/
theorem C42_statements (dim : D → Nat) (noblocks noscalars : Bool) (ud : UD D S U) (sd : List Nat)
    (ls : List (SItem D)) (h : programLoops o dim noblocks noscalars ud = .ok (sd, ls)) :
    ls.flatMap SItem.stmts = (List.range ud.domains.length).map (· + 1) ∧
    ∀ k a, ud.domains[k]? = some a → ∃ l, (makeLoops dim 0 ud.domains)[k]? = some l ∧
      l.number = k + 1 ∧ l.name = a.name ∧ l.usr = a.usr ∧ l.dom = a.dom ∧ l.depth = dim a.dom := by
  constructor
  · have hfl : ∀ l : List (PLoop D U), (l.map fun l => [l.number]).flatten = l.map PLoop.number := by
      intro l
      induction l with
      | nil => rfl
      | cons a l ih => simp [ih]
    unfold programLoops at h
    dsimp only at h
    cases hs : makeScats ud.domains with
    | nil =>
      rw [hs] at h
      simp only [Built.ok.injEq, Prod.mk.injEq] at h
      rw [← h.2, zipWith_stmts _ (fun _ _ => rfl) _ _ (by simp), hfl, numbers_makeLoops]
    | cons s ss =>
      rw [hs] at h
      dsimp only at h
      split_ifs at h with hlen
      · rw [← numbers_makeLoops dim]
        set items := List.zipWith (fun (l : PLoop D U) t => (⟨l.dom, t, [l.number]⟩ : Item D S))
          (makeLoops dim 0 ud.domains) (s :: ss) with hitems
        have hit : items.flatMap Item.stmts = (makeLoops dim 0 ud.domains).map PLoop.number := by
          rw [hitems]
          have : ∀ (as : List (PLoop D U)) (bs : List S), as.length = bs.length →
              (List.zipWith (fun (l : PLoop D U) t => (⟨l.dom, t, [l.number]⟩ : Item D S)) as bs).flatMap
                Item.stmts = as.map PLoop.number := by
            intro as
            induction as with
            | nil => intro bs _; simp
            | cons a as ih =>
              intro bs hb
              cases bs with
              | nil => simp at hb
              | cons b bs => simp [ih bs (by simpa using hb)]
          exact this _ _ hlen.symm
        rw [← hit]
        unfold buildAligned at h
        dsimp only at h
        have hbs : (if noblocks = true then items else programBlock o items).flatMap Item.stmts =
            items.flatMap Item.stmts := by
          split_ifs
          · rfl
          · exact programBlock_stmts items
        set blocks := (if noblocks = true then items else programBlock o items) with hblocks
        cases hx : (if noscalars = true then
            some (List.replicate (o.nScat s) 0, blocks.map fun b => (([] : List Int), b.scat))
            else extractScalars o (o.nScat s) (blocks.map Item.scat)) with
        | none => rw [hx] at h; cases h
        | some r =>
          obtain ⟨sd', rs⟩ := r
          rw [hx] at h
          dsimp only at h
          have hrl : rs.length = blocks.length := by
            split_ifs at hx
            · simp only [Option.some.injEq, Prod.mk.injEq] at hx
              rw [← hx.2]; simp
            · rw [extractScalars_length hx]; simp
          cases ha : assemble o blocks rs with
          | error e => rw [ha] at h; cases h
          | ok ls' =>
            rw [ha] at h
            simp only [Built.ok.injEq, Prod.mk.injEq] at h
            rw [← hbs, ← assemble_stmts hrl ha, ← h.2]
            split_ifs
            · rfl
            · exact loopBlock_stmts _ _ _
      · unfold buildShort at h
        split_ifs at h
        cases ha : scatterAll o ((makeLoops dim 0 ud.domains).map PLoop.dom) (s :: ss) with
        | error e => rw [ha] at h; cases h
        | ok ds =>
          rw [ha] at h
          simp only [Built.ok.injEq, Prod.mk.injEq] at h
          rw [← h.2, zipWith_stmts _ (fun _ _ => rfl) _ _ (by
            rw [scatterAll_length ha]; simp), hfl, numbers_makeLoops]
  · intro k a ha
    exact ⟨_, by rw [makeLoops_get, ha]; rfl, by simp, rfl, rfl, rfl, rfl⟩

/-! ## Dates -/

open Verif.Props.Program in
theorem interleave_append : ∀ (f : List Bool) (vs t x : List Int), f.count false ≤ t.length →
    interleave f vs (t ++ x) = interleave f vs t
  | [], vs, t, x, _ => rfl
  | true :: f, vs, t, x, h => by
    simp only [interleave]
    rw [interleave_append f _ t x (by simpa using h)]
  | false :: f, vs, [], x, h => by simp at h
  | false :: f, vs, v :: t, x, h => by
    simp only [interleave, List.cons_append, List.tail_cons]
    rw [interleave_append f vs t x (by simpa using h)]
    rfl

theorem scatterGo_get {n : Nat} : ∀ {ds : List D} {ss : List S}, ds.length = ss.length →
    (∀ s ∈ ss, o.nScat s = n) → scatterGo o n ds ss = .ok (List.zipWith o.scatter ds ss)
  | [], [], _, _ => rfl
  | [], _ :: _, h, _ => by simp at h
  | _ :: _, [], h, _ => by simp at h
  | d :: ds, s :: ss, h, hs => by
    unfold scatterGo
    rw [if_neg (by rw [hs s List.mem_cons_self]; exact fun h => h rfl),
      scatterGo_get (by simpa using h) (fun t ht => hs t (List.mem_cons_of_mem _ ht))]
    rfl

theorem scatterAll_get {n : Nat} {ds : List D} {ss : List S} (h : ds.length = ss.length)
    (hs : ∀ s ∈ ss, o.nScat s = n) : scatterAll o ds ss = .ok (List.zipWith o.scatter ds ss) := by
  cases ss with
  | nil => simp only [List.length_nil, List.length_eq_zero_iff] at h; subst h; rfl
  | cons s ss =>
    show scatterGo o (o.nScat s) ds (s :: ss) = _
    apply scatterGo_get h
    intro t ht
    rw [hs t ht, hs s List.mem_cons_self]

theorem filterMap_all {as : List (Named D S U)} (h : ∀ a ∈ as, ∃ s, a.scat = some s) :
    (makeScats as).length = as.length ∧
      ∀ (k : Nat) (a : Named D S U), as[k]? = some a → (makeScats as)[k]? = a.scat := by
  induction as with
  | nil => simp [makeScats]
  | cons a as ih =>
    obtain ⟨s, hs⟩ := h a List.mem_cons_self
    obtain ⟨i1, i2⟩ := ih (fun b hb => h b (List.mem_cons_of_mem _ hb))
    have e : makeScats (a :: as) = s :: makeScats as := by simp [makeScats, hs]
    rw [e]
    refine ⟨by simp [i1], ?_⟩
    intro k b hb
    cases k with
    | zero => simp at hb; subst hb; simp [hs]
    | succ k => simp at hb ⊢; exact i2 k b hb

open Verif.Props.Program Verif.Props.LoopBlock in
/-- **C42, dates.**  If every domain has a scattering, all with the same number of dimensions, then with
    `-noblocks` the k-th loop of the program holds statement k+1 alone; its points are the dates of
    the instances of the k-th domain followed by the iterators; and the date read off a point with the
    scalar values of the block put back is the date the k-th scattering gives the instance.
    Partial: the full property has this for every choice of which domains have a scattering, which is
    false (`C42_misaligned`, `C42_some_scatterings_crash`); and with blocks, which C50 is about. -/
theorem C42_dates_partial {mem : D → Pt → Prop} {date : S → Pt → List Int} (W : Laws o mem date)
    (hsc : ∀ d s y, mem (o.scatter d s) y ↔ ∃ x, mem d x ∧ y = date s x ++ x)
    (hk : ∀ s i j v, i < j → o.isScalar s i = some v → ∃ v', o.isScalar (o.erase s j) i = some v')
    (dim : D → Nat) (noscalars : Bool) (ud : UD D S U) (n : Nat) (hne : ud.domains ≠ [])
    (hall : ∀ a ∈ ud.domains, ∃ s, a.scat = some s ∧ o.nScat s = n) :
    ∃ sd ls, programLoops o dim true noscalars ud = .ok (sd, ls) ∧ ls.length = ud.domains.length ∧
      sd.length = n ∧
      ∀ (k : Nat) (a : Named D S U) (s : S), ud.domains[k]? = some a → a.scat = some s →
        ∃ l : SItem D, ls[k]? = some l ∧ l.stmts = [k + 1] ∧
          ∃ t : Pt → List Int, (∀ y, mem l.dom y ↔ ∃ x, mem a.dom x ∧ y = t x ++ x) ∧
            ∀ x, sdate sd l (t x ++ x) = date s x := by
  obtain ⟨c1, c2⟩ := filterMap_all (as := ud.domains) (fun a ha => by
    obtain ⟨s, hs, _⟩ := hall a ha; exact ⟨s, hs⟩)
  have hscat : ∀ s ∈ makeScats ud.domains, o.nScat s = n := by
    intro s hs
    unfold makeScats at hs
    obtain ⟨a, ha, hs⟩ := List.mem_filterMap.1 hs
    obtain ⟨s', hs', hn⟩ := hall a ha
    rw [hs'] at hs; simp only [Option.some.injEq] at hs; rw [← hs]; exact hn
  unfold programLoops
  dsimp only
  cases hms : makeScats ud.domains with
  | nil =>
    rw [hms] at c1
    exact absurd (List.length_eq_zero_iff.1 c1.symm) hne
  | cons s0 ss =>
    rw [hms] at c1 c2 hscat
    have hn0 := hscat s0 List.mem_cons_self
    dsimp only
    rw [if_pos (by rw [c1, makeLoops_length])]
    set scs := s0 :: ss with hscs
    set loops := makeLoops dim 0 ud.domains with hloops
    have hll : loops.length = scs.length := by rw [hloops, makeLoops_length, c1]
    set items := List.zipWith (fun (l : PLoop D U) t => (⟨l.dom, t, [l.number]⟩ : Item D S)) loops scs
      with hitems
    have hil : items.length = scs.length := by rw [hitems]; simp [hll]
    have hisc : items.map Item.scat = scs := by
      apply List.ext_getElem?
      intro i
      rw [hitems, List.getElem?_map, List.getElem?_zipWith]
      by_cases hi : i < scs.length
      · rw [List.getElem?_eq_getElem (by omega : i < loops.length), List.getElem?_eq_getElem hi]; rfl
      · rw [List.getElem?_eq_none (by omega : loops.length ≤ i), List.getElem?_eq_none (by omega : scs.length ≤ i)]; rfl
    unfold buildAligned
    dsimp only
    rw [if_pos rfl, hisc, hn0]
    -- the extraction
    obtain ⟨sd, rs, he, hsdl, hrl, hnr, hdate⟩ : ∃ sd rs, (if noscalars = true then
          some (List.replicate n 0, items.map fun b => (([] : List Int), b.scat))
        else extractScalars o n scs) = some (sd, rs) ∧ sd.length = n ∧ rs.length = scs.length ∧
        (∀ r ∈ rs, ∀ r' ∈ rs, o.nScat r.2 = o.nScat r'.2) ∧
        ∀ (k : Nat) (s : S) (r : List Int × S), scs[k]? = some s → rs[k]? = some r →
          ∀ x y, interleave (sd.map fun m => decide (m ≠ 0)) r.1 (date r.2 x ++ y) = date s x := by
      cases noscalars with
      | true =>
        refine ⟨_, _, if_pos rfl, by simp, by simp [hil], ?_, ?_⟩
        · intro r hr r' hr'
          obtain ⟨i, hi, rfl⟩ := List.mem_map.1 hr
          obtain ⟨j, hj, rfl⟩ := List.mem_map.1 hr'
          have m1 : i.scat ∈ scs := by rw [← hisc]; exact List.mem_map.2 ⟨i, hi, rfl⟩
          have m2 : j.scat ∈ scs := by rw [← hisc]; exact List.mem_map.2 ⟨j, hj, rfl⟩
          show o.nScat i.scat = o.nScat j.scat
          rw [hscat _ m1, hscat _ m2]
        · intro k s r h1 h2 x y
          have hmap : (items.map fun b => (([] : List Int), b.scat)) =
              scs.map (fun s => (([] : List Int), s)) := by rw [← hisc]; simp
          rw [hmap, List.getElem?_map, h1] at h2
          simp only [Option.map_some, Option.some.injEq] at h2
          subst h2
          have hf : (List.replicate n 0).map (fun m : Nat => decide (m ≠ 0)) =
              List.replicate n false ++ [] := by simp
          rw [hf, interleave_falses]
          have hl := W.length s x
          rw [hscat s (List.mem_of_getElem? h1)] at hl
          rw [List.take_left' hl]
          simp [interleave]
      | false =>
        obtain ⟨⟨sd, rs⟩, hx⟩ := C37_no_error hk n scs
        haveI : Nonempty Pt := ⟨[]⟩
        obtain ⟨flags, f1, f2, f3, f4, f5, f6⟩ := C37_extract_scalars W n scs hscat sd rs hx
        have hfl : (sd.map fun m => decide (m ≠ 0)) = flags := by
          apply List.ext_getElem?
          intro i
          rw [List.getElem?_map]
          by_cases hi : i < n
          · rw [List.getElem?_eq_getElem (by omega : i < sd.length),
              List.getElem?_eq_getElem (by omega : i < flags.length)]
            simp only [Option.map_some, Option.some.injEq]
            obtain ⟨r1, r2⟩ := f4 i sd[i] (List.getElem?_eq_getElem (by omega))
            by_cases hz : sd[i] = 0
            · rw [hz] at r2
              rw [Nat.add_zero, List.getElem?_eq_getElem (by omega : i < flags.length)] at r2
              rw [hz]
              cases hb : flags[i] with
              | true => rw [hb] at r2; exact absurd rfl r2
              | false => rfl
            · have := r1 0 (by omega)
              rw [Nat.add_zero, List.getElem?_eq_getElem (by omega : i < flags.length)] at this
              simp only [Option.some.injEq] at this
              rw [this]; simpa using hz
          · rw [List.getElem?_eq_none (by omega : sd.length ≤ i), List.getElem?_eq_none (by omega : flags.length ≤ i)]
            rfl
        refine ⟨sd, rs, by simpa using hx, f3, f5, ?_, ?_⟩
        · have key : ∀ r ∈ rs, o.nScat r.2 = flags.count false := by
            intro r hr
            obtain ⟨k, hk, rfl⟩ := List.getElem_of_mem hr
            exact (f6 k scs[k] rs[k] (List.getElem?_eq_getElem (by omega))
              (List.getElem?_eq_getElem hk)).2.1
          intro r hr r' hr'
          rw [key r hr, key r' hr']
        · intro k s r h1 h2 x y
          obtain ⟨-, g2, g3⟩ := f6 k s r h1 h2
          rw [hfl, interleave_append _ _ _ _ (by rw [W.length, g2]; exact Nat.le_refl _)]
          exact (g3 x).symm
    rw [he]
    dsimp only
    have hasm : assemble o items rs = .ok (List.zipWith (fun (p : D × List Int) b => (⟨p.1, p.2, b⟩ : SItem D))
        ((List.zipWith o.scatter (items.map Item.dom) (rs.map Prod.snd)).zip (rs.map Prod.fst))
        (items.map Item.stmts)) := by
      unfold assemble
      have : scatterAll o (items.map Item.dom) (rs.map Prod.snd) =
          .ok (List.zipWith o.scatter (items.map Item.dom) (rs.map Prod.snd)) := by
        cases hrs : rs with
        | nil =>
          rw [hrs, hscs] at hrl; simp at hrl
        | cons r0 rs' =>
          apply scatterAll_get (n := o.nScat r0.2)
          · rw [← hrs]; simp [hil, hrl]
          · intro s hs
            obtain ⟨r, hr, rfl⟩ := List.mem_map.1 hs
            rw [← hrs] at hr
            exact hnr r hr r0 (by rw [hrs]; exact List.mem_cons_self)
      rw [this]
    rw [hasm]
    dsimp only
    rw [if_pos rfl]
    refine ⟨sd, _, rfl, by simp [hil, hrl, c1], hsdl, ?_⟩
    intro k a s ha hs
    have hk' : k < ud.domains.length := (List.getElem?_eq_some_iff.1 ha).1
    have h1 : scs[k]? = some s := by rw [c2 k a ha, hs]
    have hrk : k < rs.length := by omega
    have h2 : rs[k]? = some rs[k] := List.getElem?_eq_getElem hrk
    have h3 : items[k]? = some ⟨a.dom, s, [k + 1]⟩ := by
      rw [hitems, List.getElem?_zipWith, hloops, makeLoops_get, ha, h1]
      simp
    refine ⟨⟨o.scatter a.dom rs[k].2, rs[k].1, [k + 1]⟩, ?_, rfl, fun x => date rs[k].2 x, ?_, ?_⟩
    · rw [List.getElem?_zipWith, List.zip, List.getElem?_zipWith, List.getElem?_zipWith]
      simp only [List.getElem?_map, h2, h3, Option.map_some]
    · intro y; exact hsc _ _ _
    · intro x
      exact hdate k s rs[k] h1 h2 x x

/-! ## Scatterings for some of the domains only -/

/-- If some domains have a scattering and some have none, the default options crash: a null pointer is
    read, whatever the domains are. -/
theorem C42_some_scatterings_crash (dim : D → Nat) (noscalars : Bool) (ud : UD D S U)
    (h1 : ∃ a ∈ ud.domains, ∃ s, a.scat = some s) (h2 : ∃ a ∈ ud.domains, a.scat = none) :
    programLoops o dim false noscalars ud = .crash := by
  have hlt : ∀ as : List (Named D S U), (makeScats as).length ≤ as.length ∧
      ((∃ a ∈ as, a.scat = none) → (makeScats as).length < as.length) := by
    intro as
    induction as with
    | nil => simp [makeScats]
    | cons a as ih =>
      cases ha : a.scat with
      | none =>
        have : makeScats (a :: as) = makeScats as := by simp [makeScats, ha]
        rw [this]; simp only [List.length_cons]
        exact ⟨by omega, fun _ => by omega⟩
      | some s =>
        have : makeScats (a :: as) = s :: makeScats as := by simp [makeScats, ha]
        rw [this]; simp only [List.length_cons]
        refine ⟨by omega, ?_⟩
        rintro ⟨b, hb, hn⟩
        rcases List.mem_cons.1 hb with rfl | hb
        · rw [ha] at hn; cases hn
        · have := ih.2 ⟨b, hb, hn⟩; omega
  unfold programLoops
  dsimp only
  cases hms : makeScats ud.domains with
  | nil =>
    obtain ⟨a, ha, s, hs⟩ := h1
    have : s ∈ makeScats ud.domains := List.mem_filterMap.2 ⟨a, ha, hs⟩
    rw [hms] at this; simp at this
  | cons s ss =>
    dsimp only
    rw [if_neg]
    · rfl
    · rw [← hms, makeLoops_length]
      have := (hlt ud.domains).2 h2
      omega

/-- Scatterings whose entries are a constant, or the first coordinate plus a constant. -/
def headDate (s : List (Bool × Int)) (x : List Int) : List Int :=
  s.map fun c => if c.1 then x.headD 0 + c.2 else c.2

/-- Finite sets of points with such scatterings. -/
def headOps : Ops (List (List Int)) (List (Bool × Int)) where
  lazyEqual d e := decide (d = e)
  nScat s := s.length
  fixedDelta _ _ _ := none
  injective _ := false
  isScalar s i := (s[i]?).bind fun c => if c.1 then none else some c.2
  erase s i := s.eraseIdx i
  scatter d s := d.map fun x => headDate s x ++ x
  isConst _ _ := false

theorem headLaws : Verif.Props.Program.Laws headOps (fun d x => x ∈ d) headDate where
  length s x := by simp [headDate, headOps]
  lazyEqual d e h x := by simp only [headOps, decide_eq_true_eq] at h; rw [h]
  fixedDelta s t i c h x u v hu hv := by simp [headOps] at h
  injective ss h := by simp [headOps] at h
  isScalar s i v h x := by
    simp only [headOps] at h
    cases hs : s[i]? with
    | none => simp [hs] at h
    | some c =>
      simp only [hs, Option.bind_some] at h
      split_ifs at h with hc
      simp only [Option.some.injEq] at h
      simp [headDate, hs, hc, h]
  erase s i x := by simp [headDate, headOps, List.eraseIdx_map]

/-- Two domains, both with a scattering of three dimensions. -/
def scattered : UD (List (List Int)) (List (Bool × Int)) Unit where
  n := fun _ => 1
  names := fun _ => none
  domains := [⟨none, [[5], [6]], some [(false, 1), (true, 0), (false, 4)], ()⟩,
    ⟨none, [[7]], some [(false, 1), (true, 2), (true, 0)], ()⟩]

/-- The hypotheses of `C42_dates_partial` hold of `scattered`. -/
example : ∃ sd ls, programLoops headOps (fun _ => 1) true false scattered = .ok (sd, ls) ∧
      ls.length = 2 ∧ sd.length = 3 := by
  obtain ⟨sd, ls, h1, h2, h3, -⟩ := C42_dates_partial headLaws
    (by
      intro d s y
      simp only [headOps, List.mem_map]
      exact ⟨fun ⟨x, a, b⟩ => ⟨x, a, b.symm⟩, fun ⟨x, a, b⟩ => ⟨x, a, b.symm⟩⟩)
    (by
      intro s i j v hij h
      simp only [headOps] at h ⊢
      rw [List.getElem?_eraseIdx, if_pos hij]
      exact ⟨v, h⟩)
    (fun _ => 1) false scattered 3 (by simp [scattered])
    (by
      intro a ha
      simp only [scattered, List.mem_cons, List.not_mem_nil, or_false] at ha
      rcases ha with rfl | rfl
      · exact ⟨_, rfl, rfl⟩
      · exact ⟨_, rfl, rfl⟩)
  exact ⟨sd, ls, h1, h2, h3⟩

example : programLoops headOps (fun _ => 1) true false scattered =
    .ok ([1, 0, 0], [⟨[[5, 4, 5], [6, 4, 6]], [1], [1]⟩, ⟨[[9, 7, 7]], [1], [2]⟩]) := rfl

/-- Two domains, the second alone with a scattering. -/
def shifted : UD (List (List Int)) (List (Bool × Int)) Unit where
  n := fun _ => 1
  names := fun _ => none
  domains := [⟨none, [[5]], none, ()⟩, ⟨none, [[7]], some [(true, 3)], ()⟩]

/-- **C42 is false when only some domains have a scattering**: with `-noblocks` the scattering of the
    second domain is applied to the first, and the second is left without one. -/
theorem C42_misaligned :
    programLoops headOps (fun _ => 1) true false shifted =
      .ok ([0], [⟨[[8, 5]], [], [1]⟩, ⟨[[7]], [], [2]⟩]) := rfl

example : programLoops headOps (fun _ => 1) false false shifted = .crash :=
  C42_some_scatterings_crash _ _ _ ⟨_, List.mem_cons_of_mem _ List.mem_cons_self, _, rfl⟩
    ⟨_, List.mem_cons_self, rfl⟩

end Verif.Props.UnionDomain
