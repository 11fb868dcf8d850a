import Verif.Model.OslImport
import Verif.Props.UnionDomain

/-!
# C74: importing an OpenScop scop
-/

namespace Verif.Props.OslImport
open Verif.Names Verif.UnionDomain Verif.OslImport Verif.Props.UnionDomain

variable {R D S : Type} (x : Ext R D S)

/-! ## Specification -/

/-- The number of parameters a scop declares. -/
def nPar (p : Scop R) : Nat := (p.context.map x.nbPar).getD 0

/-- The names of the parameters given. -/
def pNames (p : Scop R) : List CStr := p.params.getD []

/-- The names of scattering dimensions given. -/
def sNames (p : Scop R) : List CStr := p.scatnames.getD []

/-- A statement has a domain, and what it gives as its scattering is one. -/
def GoodStmt (s : OStmt R) : Prop := s.dom ≠ none ∧ ∀ r, s.scat = some r → x.isScat r = true

/-- The domains of statements. -/
def doms (ss : List (OStmt R)) : List D := ss.filterMap fun s => s.dom.map x.toDom

/-- The scatterings of statements. -/
def scats (ss : List (OStmt R)) : List (Option S) := ss.map fun s => s.scat.map x.toScat

/-- The most scattering dimensions of a statement. -/
def nScat (ss : List (OStmt R)) : Nat := largest (ss.filterMap fun s => s.scat.map fun r => x.sdim (x.toScat r))

/-! ## Proofs -/

/-- The calls naming dimensions from position `i`. -/
def nameCalls (t : Ty) (i : Nat) : List CStr → List (Call D S Unit)
  | [] => []
  | s :: ss => .setName (some t) i s :: nameCalls t (i + 1) ss

/-- The call adding a statement. -/
def addCall (s : OStmt R) : Option (Call D S Unit) :=
  s.dom.map fun r => .add ⟨none, x.toDom r, s.scat.map x.toScat, ()⟩

theorem bind_ok {α β : Type} (a : α) (f : α → Res β) : (Res.ok a).bind f = f a := rfl

theorem setParams_run (ss : List CStr) : ∀ (i : Nat) (ud : UD D S Unit),
    setParams i ss ud = ofCall (run x.dim x.sdim (nameCalls .param i ss) ud) := by
  induction ss with
  | nil => intro i ud; rfl
  | cons s ss ih =>
    intro i ud
    simp only [setParams, nameCalls, run, step]
    cases setName (some .param) (↑i) s ud with
    | error e => rfl
    | ok u => exact ih (i + 1) u

theorem addStmts_run (ss : List (OStmt R)) (hg : ∀ s ∈ ss, GoodStmt x s) : ∀ ud : UD D S Unit,
    addStmts x ss ud = ofCall (run x.dim x.sdim (ss.filterMap (addCall x)) ud) := by
  induction ss with
  | nil => intro ud; rfl
  | cons s ss ih =>
    intro ud
    obtain ⟨h1, h2⟩ := hg s (by simp)
    obtain ⟨r, hr⟩ := Option.ne_none_iff_exists'.1 h1
    have hs : scatOf x s.scat = .ok (s.scat.map x.toScat) := by
      cases hsc : s.scat with
      | none => rfl
      | some q => simp only [scatOf, h2 q hsc, if_true, Option.map_some]
    have hc : addCall x s = some (.add ⟨none, x.toDom r, s.scat.map x.toScat, ()⟩) := by
      simp only [addCall, hr, Option.map_some]
    simp only [addStmts, addStmt, hs, bind_ok, hr, List.filterMap_cons, hc, run, step]
    cases addDomain x.dim x.sdim ⟨none, x.toDom r, s.scat.map x.toScat, ()⟩ ud with
    | error e => rfl
    | ok u => exact ih (fun s hs => hg s (by simp [hs])) u

/-- The union domain after a name was set. -/
def named (t : Ty) (i : Nat) (s : CStr) (ud : UD D S Unit) : UD D S Unit :=
  { ud with names := fun t' =>
      if t' = t then some (((ud.names t).getD (List.replicate (ud.n t) none)).set i (some s))
      else ud.names t' }

theorem setName_ok {t : Ty} {i : Nat} {ud : UD D S Unit} (h : i < ud.n t) (s : CStr) :
    setName (some t) i s ud = .ok (named t i s ud) := by
  simp only [setName]
  rw [if_neg (by omega)]
  simp only [Int.toNat_natCast]
  rfl

theorem setScats_run (ss : List CStr) : ∀ (i : Nat) (ud : UD D S Unit),
    setScats i ss ud = ofCall (run x.dim x.sdim (nameCalls .scat i (ss.take (ud.n .scat - i))) ud) := by
  induction ss with
  | nil => intro i ud; simp only [List.take_nil]; rfl
  | cons s ss ih =>
    intro i ud
    simp only [setScats]
    by_cases h : i < ud.n .scat
    · rw [if_pos h]
      obtain ⟨k, hk⟩ : ∃ k, ud.n .scat - i = k + 1 := ⟨ud.n .scat - i - 1, by omega⟩
      rw [hk, List.take_succ_cons]
      simp only [nameCalls, run, step]
      rw [setName_ok h]
      show setScats (i + 1) ss _ = _
      rw [ih]
      have : (named .scat i s ud).n .scat - (i + 1) = k := by show ud.n .scat - (i + 1) = k; omega
      simp only [this]
    · rw [if_neg h, show ud.n .scat - i = 0 by omega]
      rfl

theorem nameCalls_adds (t : Ty) (ss : List CStr) : ∀ i, adds (nameCalls t i ss : List (Call D S Unit)) = [] := by
  induction ss with
  | nil => intro i; rfl
  | cons s ss ih =>
    intro i
    have := ih (i + 1)
    unfold adds at this ⊢
    simp only [nameCalls, List.filterMap_cons, Call.added, this]

theorem addCalls_adds (ss : List (OStmt R)) : adds (ss.filterMap (addCall x)) =
    ss.filterMap fun s => s.dom.map fun r => ⟨none, x.toDom r, s.scat.map x.toScat, ()⟩ := by
  induction ss with
  | nil => rfl
  | cons s ss ih =>
    have h : adds ((s :: ss).filterMap (addCall x)) =
        ((addCall x s).bind Call.added).toList ++ adds (ss.filterMap (addCall x)) := by
      rw [List.filterMap_cons]
      cases hc : addCall x s with
      | none => rfl
      | some c => cases ha : Call.added c <;> simp [adds, ha]
    rw [h, ih, List.filterMap_cons]
    unfold addCall
    cases s.dom <;> rfl

theorem nameCalls_mem {t : Ty} {ss : List CStr} : ∀ {i : Nat} {c : Call D S Unit}, c ∈ nameCalls t i ss →
    ∃ j s, c = .setName (some t) (j : Nat) s ∧ i ≤ j ∧ j < i + ss.length := by
  induction ss with
  | nil => intro i c h; simp [nameCalls] at h
  | cons s ss ih =>
    intro i c h
    simp only [nameCalls, List.mem_cons] at h
    rcases h with rfl | h
    · exact ⟨i, s, rfl, Nat.le_refl _, by simp⟩
    · obtain ⟨j, s', rfl, h1, h2⟩ := ih h
      exact ⟨j, s', rfl, by omega, by simp only [List.length_cons]; omega⟩

theorem nameCalls_any (t t' : Ty) (ss : List CStr) (i : Nat) :
    (nameCalls t i ss : List (Call D S Unit)).any (Call.names t') = (decide (t = t') && !ss.isEmpty) := by
  induction ss generalizing i with
  | nil => simp [nameCalls]
  | cons s ss ih =>
    simp only [nameCalls, List.any_cons, ih, Call.names, List.isEmpty_cons]
    by_cases h : t = t' <;> simp [h]

theorem addCalls_any (t : Ty) (ss : List (OStmt R)) :
    (ss.filterMap (addCall x)).any (Call.names t) = false := by
  rw [List.any_eq_false]
  intro c hc
  obtain ⟨s, _, h⟩ := List.mem_filterMap.1 hc
  simp only [addCall, Option.map_eq_some_iff] at h
  obtain ⟨r, _, rfl⟩ := h
  simp [Call.names]

/-- All calls of the import. -/
def calls (p : Scop R) : List (Call D S Unit) :=
  nameCalls .param 0 (pNames p) ++ (x.normalize p.stmts).filterMap (addCall x) ++
    nameCalls .scat 0 ((sNames p).take (nScat x (x.normalize p.stmts)))

theorem adds_append (as bs : List (Call D S Unit)) : adds (as ++ bs) = adds as ++ adds bs := by
  simp [adds, List.filterMap_append]

theorem calls_adds (p : Scop R) : adds (calls x p) = (x.normalize p.stmts).filterMap fun s =>
    s.dom.map fun r => ⟨none, x.toDom r, s.scat.map x.toScat, ()⟩ := by
  unfold calls
  rw [adds_append, adds_append, nameCalls_adds, nameCalls_adds, addCalls_adds]
  simp

theorem count_append_names (nb : Nat) (cs : List (Call D S Unit)) (t : Ty) (i : Nat) (ss : List CStr) :
    count x.dim x.sdim nb (cs ++ nameCalls t i ss) = count x.dim x.sdim nb cs := by
  funext u
  cases u <;> simp only [count, adds_append, nameCalls_adds, List.append_nil]

theorem nScat_eq (ss : List (OStmt R)) (hg : ∀ s ∈ ss, GoodStmt x s) :
    largest ((ss.filterMap fun s => s.dom.map fun r =>
      (⟨none, x.toDom r, s.scat.map x.toScat, ()⟩ : Named D S Unit)).filterMap
        fun a => a.scat.map x.sdim) = nScat x ss := by
  unfold nScat
  congr 1
  induction ss with
  | nil => rfl
  | cons s ss ih =>
    obtain ⟨r, hr⟩ := Option.ne_none_iff_exists'.1 (hg s (by simp)).1
    have := ih fun s hs => hg s (by simp [hs])
    simp only [List.filterMap_cons, hr, Option.map_some]
    cases s.scat with
    | none => simpa using this
    | some q => simp [this]

theorem proper_calls (p : Scop R) (hn : (pNames p).length ≤ nPar x p)
    (hg : ∀ s ∈ x.normalize p.stmts, GoodStmt x s) : Proper x.dim x.sdim (nPar x p) (calls x p) := by
  intro pre c post he
  unfold calls at he
  have hcnt : count x.dim x.sdim (nPar x p) ((x.normalize p.stmts).filterMap (addCall x)) .scat =
      nScat x (x.normalize p.stmts) := by
    simp only [count, addCalls_adds]
    exact nScat_eq x _ hg
  rw [List.append_assoc] at he
  rcases List.append_eq_append_iff.1 he with ⟨as, h1, h2⟩ | ⟨bs, h1, h2⟩
  · -- after the parameter names
    rcases List.append_eq_append_iff.1 h2 with ⟨as', h3, h4⟩ | ⟨bs', h3, h4⟩
    · -- among the scattering names
      have hc : c ∈ nameCalls (D := D) (S := S) .scat 0 ((sNames p).take (nScat x (x.normalize p.stmts))) := by
        rw [h4]; simp
      obtain ⟨j, s, rfl, -, hj⟩ := nameCalls_mem hc
      have hlen : j < nScat x (x.normalize p.stmts) := by
        have := List.length_take_le (nScat x (x.normalize p.stmts)) (sNames p)
        omega
      have hadds : adds as' = [] := by
        have := nameCalls_adds (D := D) (S := S) .scat ((sNames p).take (nScat x (x.normalize p.stmts))) 0
        rw [h4, adds_append] at this
        exact (List.append_eq_nil_iff.1 this).1
      have hcs : count x.dim x.sdim (nPar x p) pre .scat = nScat x (x.normalize p.stmts) := by
        rw [h1, h3]
        rw [← hcnt]
        simp only [count, adds_append, nameCalls_adds, hadds, List.append_nil, List.nil_append]
      simp only [misuse, hcs]
      rw [if_pos ⟨by omega, by omega⟩]
    · -- among the statements
      cases bs' with
      | nil =>
        -- at the first scattering name
        simp only [List.append_nil] at h3
        simp only [List.nil_append] at h4
        have hc : c ∈ nameCalls (D := D) (S := S) .scat 0 ((sNames p).take (nScat x (x.normalize p.stmts))) := by
          rw [← h4]; simp
        obtain ⟨j, s, rfl, -, hj⟩ := nameCalls_mem hc
        have hlen : j < nScat x (x.normalize p.stmts) := by
          have := List.length_take_le (nScat x (x.normalize p.stmts)) (sNames p)
          omega
        have hcs : count x.dim x.sdim (nPar x p) pre .scat = nScat x (x.normalize p.stmts) := by
          rw [h1, ← h3, ← hcnt]
          simp only [count, adds_append, nameCalls_adds, List.nil_append]
        simp only [misuse, hcs]
        rw [if_pos ⟨by omega, by omega⟩]
      | cons b bs' =>
        simp only [List.cons_append, List.cons.injEq] at h4
        obtain ⟨rfl, h4⟩ := h4
        have hc : c ∈ (x.normalize p.stmts).filterMap (addCall x) := by rw [h3]; simp
        obtain ⟨s, _, h⟩ := List.mem_filterMap.1 hc
        simp only [addCall, Option.map_eq_some_iff] at h
        obtain ⟨r, _, rfl⟩ := h
        have hno : ∀ t, t ≠ .param → pre.any (Call.names t) = false := by
          intro t ht
          have ha := addCalls_any x t (x.normalize p.stmts)
          rw [h3, List.any_append, Bool.or_eq_false_iff] at ha
          rw [h1, List.any_append, nameCalls_any, ha.1]
          simp [Ne.symm ht]
        simp only [misuse, hno .iter (by simp), hno .scat (by simp), Bool.false_eq_true, if_false]
  · cases bs with
    | nil =>
      simp only [List.append_nil] at h1
      simp only [List.nil_append] at h2
      -- the first call after the parameter names
      have hpre : pre = nameCalls .param 0 (pNames p) := h1.symm
      cases hs : (x.normalize p.stmts).filterMap (addCall x) with
      | nil =>
        rw [hs, List.nil_append] at h2
        have hc : c ∈ nameCalls (D := D) (S := S) .scat 0 ((sNames p).take (nScat x (x.normalize p.stmts))) := by
          rw [← h2]; simp
        obtain ⟨j, s, rfl, -, hj⟩ := nameCalls_mem hc
        have hlen : j < nScat x (x.normalize p.stmts) := by
          have := List.length_take_le (nScat x (x.normalize p.stmts)) (sNames p)
          omega
        rw [← hcnt, hs] at hlen
        simp [count, adds, largest] at hlen
      | cons b l =>
        rw [hs, List.cons_append, List.cons.injEq] at h2
        obtain ⟨rfl, -⟩ := h2
        have hc : c ∈ (x.normalize p.stmts).filterMap (addCall x) := by rw [hs]; simp
        obtain ⟨s, _, h⟩ := List.mem_filterMap.1 hc
        simp only [addCall, Option.map_eq_some_iff] at h
        obtain ⟨r, _, rfl⟩ := h
        simp only [misuse, hpre, nameCalls_any]
        simp
    | cons b bs =>
      rw [List.cons_append, List.cons.injEq] at h2
      obtain ⟨rfl, -⟩ := h2
      have hc : c ∈ nameCalls (D := D) (S := S) .param 0 (pNames p) := by rw [h1]; simp
      obtain ⟨j, s, rfl, -, hj⟩ := nameCalls_mem hc
      have hj' : (0 : Int) ≤ (j : Int) ∧ (j : Int) < (nPar x p : Int) := ⟨by omega, by omega⟩
      show (if (0 : Int) ≤ (j : Int) ∧ (j : Int) < (nPar x p : Int) then none else some Err.range) = none
      rw [if_pos hj']

theorem setParams_spec (nb : Nat) (ss : List CStr) : ∀ (i : Nat) (ud : UD D S Unit), ud.n .param = nb →
    (i + ss.length ≤ nb → ∃ u, setParams i ss ud = .ok u) ∧
    (¬ i + ss.length ≤ nb → i ≤ nb → setParams i ss ud = .die .range) := by
  induction ss with
  | nil => intro i ud h; exact ⟨fun _ => ⟨ud, rfl⟩, fun h1 h2 => absurd h2 (by simpa using h1)⟩
  | cons s ss ih =>
    intro i ud h
    simp only [setParams, List.length_cons]
    by_cases hi : i < nb
    · rw [setName_ok (by omega)]
      have := ih (i + 1) (named .param i s ud) h
      refine ⟨fun hl => this.1 (by omega), fun hl _ => this.2 (by omega) (by omega)⟩
    · have e : setName (some .param) (↑i) s ud = .error .range := by
        simp only [setName]
        rw [if_pos (by omega)]
      rw [e]
      exact ⟨fun hl => by omega, fun _ _ => rfl⟩

theorem parCount_eq (p : Scop R) : parCount x p = nPar x p := by
  unfold nPar parCount; cases p.context <;> rfl

theorem fromScop_run (p : Scop R) (hn : (pNames p).length ≤ nPar x p)
    (hg : ∀ s ∈ x.normalize p.stmts, GoodStmt x s) :
    fromScop x p = ofCall (run x.dim x.sdim (calls x p) (alloc (nPar x p))) := by
  have hp := proper_calls x p hn hg
  have hpre : ∀ as bs : List (Call D S Unit), calls x p = as ++ bs →
      Proper x.dim x.sdim (nPar x p) as := by
    intro as bs h pre c post he
    exact hp pre c (post ++ bs) (by rw [h, he]; simp)
  unfold fromScop
  rw [parCount_eq]
  rw [setParams_run x, show p.params.getD [] = pNames p from rfl]
  have h1 := hpre (nameCalls .param 0 (pNames p))
    ((x.normalize p.stmts).filterMap (addCall x) ++ nameCalls .scat 0 ((sNames p).take (nScat x (x.normalize p.stmts))))
    (by unfold calls; rw [List.append_assoc])
  have h2 := hpre (nameCalls .param 0 (pNames p) ++ (x.normalize p.stmts).filterMap (addCall x))
    (nameCalls .scat 0 ((sNames p).take (nScat x (x.normalize p.stmts)))) rfl
  have r1 := run_proper _ _ h1
  have r2 := run_proper _ _ h2
  rw [r1]
  simp only [ofCall, bind_ok]
  rw [addStmts_run x _ hg]
  rw [run_append, r1] at r2
  simp only at r2
  rw [r2]
  simp only [ofCall, bind_ok]
  rw [setScats_run x, show p.scatnames.getD [] = sNames p from rfl]
  have hns : (stateAfter x.dim x.sdim (nPar x p)
      (nameCalls .param 0 (pNames p) ++ (x.normalize p.stmts).filterMap (addCall x))).n .scat =
      nScat x (x.normalize p.stmts) := by
    simp only [stateAfter, count, adds_append, nameCalls_adds, List.nil_append, addCalls_adds]
    exact nScat_eq x _ hg
  rw [hns, Nat.sub_zero]
  unfold calls
  rw [run_append (nameCalls .param 0 (pNames p) ++ _), run_proper _ _ h2]
  rfl

theorem nameCalls_nameOf (t t' : Ty) (i : Nat) (ss : List CStr) : ∀ j : Nat,
    (nameCalls t' j ss : List (Call D S Unit)).filterMap (Call.nameOf t i) =
      if t = t' ∧ j ≤ i then (ss[i - j]?).toList else [] := by
  induction ss with
  | nil => intro j; simp [nameCalls]
  | cons s ss ih =>
    intro j
    simp only [nameCalls, List.filterMap_cons, ih, Call.nameOf, Option.some.injEq]
    by_cases ht : t = t'
    · subst ht
      rcases Nat.lt_trichotomy j i with h | h | h
      · have e1 : ¬ ((j : Int) = (i : Int)) := by omega
        obtain ⟨k, hk⟩ : ∃ k, i - j = k + 1 := ⟨i - j - 1, by omega⟩
        have e2 : i - (j + 1) = k := by omega
        simp [e1, show j ≤ i by omega, show j + 1 ≤ i by omega, hk, e2]
      · subst h
        simp [show ¬ j + 1 ≤ j by omega]
      · have e1 : ¬ ((j : Int) = (i : Int)) := by omega
        simp [e1, show ¬ j ≤ i by omega, show ¬ j + 1 ≤ i by omega]
    · simp [ht, Ne.symm ht]

theorem addCalls_nameOf (t : Ty) (i : Nat) (ss : List (OStmt R)) :
    (ss.filterMap (addCall x)).filterMap (Call.nameOf t i) = [] := by
  rw [List.filterMap_eq_nil_iff]
  intro c hc
  obtain ⟨s, _, h⟩ := List.mem_filterMap.1 hc
  simp only [addCall, Option.map_eq_some_iff] at h
  obtain ⟨r, _, rfl⟩ := h
  rfl

theorem getLast?_toList {α : Type} (o : Option α) : o.toList.getLast? = o := by cases o <;> rfl

theorem lastName_param (p : Scop R) (i : Nat) : lastName .param i (calls x p) = (pNames p)[i]? := by
  unfold lastName calls
  rw [List.filterMap_append, List.filterMap_append, nameCalls_nameOf, nameCalls_nameOf, addCalls_nameOf]
  simp [getLast?_toList]

theorem lastName_scat (p : Scop R) (i : Nat) (h : i < nScat x (x.normalize p.stmts)) :
    lastName .scat i (calls x p) = (sNames p)[i]? := by
  unfold lastName calls
  rw [List.filterMap_append, List.filterMap_append, nameCalls_nameOf, nameCalls_nameOf, addCalls_nameOf]
  simp [getLast?_toList, List.getElem?_take, h]

theorem any_calls (p : Scop R) (t : Ty) : (calls x p).any (Call.names t) =
    ((decide (Ty.param = t) && !(pNames p).isEmpty) ||
      (decide (Ty.scat = t) && !((sNames p).take (nScat x (x.normalize p.stmts))).isEmpty)) := by
  unfold calls
  rw [List.any_append, List.any_append, nameCalls_any, nameCalls_any, addCalls_any, Bool.or_false]

/-- The domains added, when every statement has one. -/
theorem adds_map (ss : List (OStmt R)) (hg : ∀ s ∈ ss, GoodStmt x s) :
    let as := ss.filterMap fun s => s.dom.map fun r =>
      (⟨none, x.toDom r, s.scat.map x.toScat, ()⟩ : Named D S Unit)
    as.map Named.dom = doms x ss ∧ as.map Named.scat = scats x ss ∧ as.length = ss.length ∧
      ∀ a ∈ as, a.name = none := by
  induction ss with
  | nil => simp [doms, scats]
  | cons s ss ih =>
    obtain ⟨r, hr⟩ := Option.ne_none_iff_exists'.1 (hg s (by simp)).1
    obtain ⟨h1, h2, h3, h4⟩ := ih fun s hs => hg s (by simp [hs])
    dsimp only
    unfold doms scats at *
    simp only [List.filterMap_cons, hr, Option.map_some, List.map_cons, List.length_cons, h1, h2, h3,
      List.mem_cons, true_and]
    rintro a (rfl | ha)
    · rfl
    · exact h4 a ha

/-- **C74, a scop is imported.**  If a scop names at most as many parameters as its context has, and
    each of its statements has a domain and, if any, a real scattering, then importing it succeeds: the
    union domain has one unnamed domain for each statement, in the order of the scop, with the
    converted domain and scattering.  The program has a name for each parameter: the one the scop gives
    it (a parameter beyond the names given has none), or the default ones if the scop names none; the
    default names of iterators; and for the scattering dimensions the names given, cut to the number of
    dimensions. -/
theorem C74_import (p : Scop R) (hn : (pNames p).length ≤ nPar x p)
    (hg : ∀ s ∈ x.normalize p.stmts, GoodStmt x s) :
    ∃ ud, fromScop x p = .ok ud ∧
      ud.domains.map Named.dom = doms x (x.normalize p.stmts) ∧
      ud.domains.map Named.scat = scats x (x.normalize p.stmts) ∧
      ud.domains.length = (x.normalize p.stmts).length ∧
      (∀ a ∈ ud.domains, a.name = none) ∧
      (makeNames x.sdim ud .param).length = nPar x p ∧
      (∀ i : Nat, i < nPar x p → (makeNames x.sdim ud .param)[i]? =
        some (if pNames p = [] then some (charName (77 + i)) else (pNames p)[i]?)) ∧
      (makeNames x.sdim ud .iter).length = largest ((doms x (x.normalize p.stmts)).map x.dim) ∧
      (∀ i : Nat, i < largest ((doms x (x.normalize p.stmts)).map x.dim) →
        (makeNames x.sdim ud .iter)[i]? = some (some (charName (105 + i)))) ∧
      (0 < nScat x (x.normalize p.stmts) → sNames p ≠ [] →
        (makeNames x.sdim ud .scat).length = nScat x (x.normalize p.stmts) ∧
        ∀ i : Nat, i < nScat x (x.normalize p.stmts) →
          (makeNames x.sdim ud .scat)[i]? = some (sNames p)[i]?) ∧
      (∀ s rest, (scats x (x.normalize p.stmts)).filterMap id = s :: rest → sNames p = [] →
        (makeNames x.sdim ud .scat).length = x.sdim s ∧
        ∀ i : Nat, i < x.sdim s → (makeNames x.sdim ud .scat)[i]? = some (some (numName [99] (1 + i)))) := by
  have hp := proper_calls x p hn hg
  have hrun := fromScop_run x p hn hg
  obtain ⟨ud, hud, hnames, hpar, hit, -, hsc⟩ := C42_names (nPar x p) (calls x p) hp
  obtain ⟨ud', hud', hdom, -, -⟩ := (C42_calls (dim := x.dim) (sdim := x.sdim) (nPar x p) (calls x p)).1 hp
  rw [hud] at hud'
  cases hud'
  rw [hud] at hrun
  obtain ⟨a1, a2, a3, a4⟩ := adds_map x (x.normalize p.stmts) hg
  rw [calls_adds] at hdom
  have hci : count x.dim x.sdim (nPar x p) (calls x p) .iter =
      largest ((doms x (x.normalize p.stmts)).map x.dim) := by
    simp only [count, calls_adds, ← a1, List.map_map]
    rfl
  have hcs : count x.dim x.sdim (nPar x p) (calls x p) .scat = nScat x (x.normalize p.stmts) := by
    simp only [count, calls_adds]
    exact nScat_eq x _ hg
  have hiter := hit (by rw [any_calls]; simp)
  rw [hci] at hiter
  have hparam : (makeNames x.sdim ud .param).length = nPar x p ∧
      ∀ i : Nat, i < nPar x p → (makeNames x.sdim ud .param)[i]? =
        some (if pNames p = [] then some (charName (77 + i)) else (pNames p)[i]?) := by
    by_cases h0 : pNames p = []
    · simp only [h0, if_true]
      exact hpar (by rw [any_calls]; simp [h0])
    · simp only [h0, if_false]
      have := hnames .param (Or.inl (by simp)) (by
        rw [any_calls]
        simp [h0])
      refine ⟨this.1, fun i hi => ?_⟩
      rw [this.2 i hi, lastName_param]
  refine ⟨ud, hrun, ?_, ?_, ?_, ?_, hparam.1, hparam.2, hiter.1, hiter.2, ?_, ?_⟩
  · rw [hdom]; exact a1
  · rw [hdom]; exact a2
  · rw [hdom]; exact a3
  · rw [hdom]; exact a4
  · intro h0 h1
    have hex : ∃ a ∈ adds (calls x p), a.scat ≠ none := by
      by_contra hc
      push Not at hc
      rw [calls_adds] at hc
      have := nScat_eq x _ hg
      rw [List.filterMap_eq_nil_iff.2 (fun a ha => by rw [hc a ha]; rfl)] at this
      rw [← this] at h0
      simp [largest] at h0
    have := hnames .scat (Or.inr hex) (by
      rw [any_calls]
      cases hs : sNames p with
      | nil => exact absurd hs h1
      | cons s ss =>
        obtain ⟨k, hk⟩ : ∃ k, nScat x (x.normalize p.stmts) = k + 1 := ⟨_, (Nat.succ_pred_eq_of_pos h0).symm⟩
        rw [hk, List.take_succ_cons]
        simp)
    rw [hcs] at this
    refine ⟨this.1, fun i hi => ?_⟩
    rw [this.2 i hi, lastName_scat x p i hi]
  · intro s rest he hs
    apply hsc s rest
    · rw [calls_adds, ← he, ← a2, List.filterMap_map]
      rfl
    · rw [any_calls]
      simp [hs]

/-- **C74, what is refused.**  More parameter names than parameters end the program with "index out of
    range", whatever the statements are.  Otherwise the first bad statement decides: a scattering that
    is none is refused; a missing domain is a null pointer that is used. -/
theorem C74_refused (p : Scop R) :
    (nPar x p < (pNames p).length → fromScop x p = .die .range) ∧
    (∀ pre s post, (pNames p).length ≤ nPar x p → x.normalize p.stmts = pre ++ s :: post →
      (∀ t ∈ pre, GoodStmt x t) →
      (∀ r, s.scat = some r → x.isScat r = false → fromScop x p = .notScattering) ∧
      ((∀ r, s.scat = some r → x.isScat r = true) → s.dom = none → fromScop x p = .crash)) := by
  have hs := setParams_spec (D := D) (S := S) (nPar x p) (pNames p) 0 (alloc (nPar x p)) rfl
  constructor
  · intro h
    have := hs.2 (by omega) (by omega)
    unfold fromScop
    rw [parCount_eq, show p.params.getD [] = pNames p from rfl, this]
    rfl
  · intro pre s post hn he hpre
    have hcomm : ∀ ud : UD D S Unit, ud.names .iter = none → ud.names .scat = none →
        ∃ u, addStmts x (pre ++ s :: post) ud = (addStmt x s u).bind (addStmts x post) := by
      clear he hs
      induction pre with
      | nil => intro ud _ _; exact ⟨ud, rfl⟩
      | cons t pre ih =>
        intro ud h1 h2
        obtain ⟨g1, g2⟩ := hpre t (by simp)
        obtain ⟨r, hr⟩ := Option.ne_none_iff_exists'.1 g1
        have hsc : scatOf x t.scat = .ok (t.scat.map x.toScat) := by
          cases hq : t.scat with
          | none => rfl
          | some q => simp only [scatOf, g2 q hq, if_true, Option.map_some]
        have e : addStmt x t ud = .ok { ud with
            n := grow x.dim x.sdim ⟨none, x.toDom r, t.scat.map x.toScat, ()⟩ ud.n,
            domains := ud.domains ++ [⟨none, x.toDom r, t.scat.map x.toScat, ()⟩] } := by
          simp [addStmt, hsc, bind_ok, hr, addDomain, h1, h2, ofCall]
        simp only [List.cons_append, addStmts, e, bind_ok]
        exact ih (fun t ht => hpre t (by simp [ht])) _ h1 h2
    have hpn : ∃ u : UD D S Unit, setParams 0 (pNames p) (alloc (nPar x p)) = .ok u ∧ u.names .iter = none ∧
        u.names .scat = none := by
      clear he hpre hs hcomm
      have : ∀ (ss : List CStr) (i : Nat) (ud : UD D S Unit), i + ss.length ≤ ud.n .param →
          ud.names .iter = none → ud.names .scat = none →
          ∃ u : UD D S Unit, setParams i ss ud = .ok u ∧ u.names .iter = none ∧ u.names .scat = none := by
        intro ss
        induction ss with
        | nil => intro i ud _ h1 h2; exact ⟨ud, rfl, h1, h2⟩
        | cons s ss ih =>
          intro i ud hl h1 h2
          simp only [List.length_cons] at hl
          simp only [setParams]
          rw [setName_ok (by omega)]
          exact ih (i + 1) (named .param i s ud) (by show i + 1 + ss.length ≤ ud.n .param; omega)
            (by simpa [named] using h1) (by simpa [named] using h2)
      exact this (pNames p) 0 (alloc (nPar x p)) (by show 0 + _ ≤ nPar x p; omega) rfl rfl
    obtain ⟨u, hu, h1, h2⟩ := hpn
    obtain ⟨v, hv⟩ := hcomm u h1 h2
    have hf : fromScop x p = ((addStmt x s v).bind (addStmts x post)).bind fun ud =>
        setScats 0 (p.scatnames.getD []) ud := by
      unfold fromScop
      rw [parCount_eq, show p.params.getD [] = pNames p from rfl, hu, bind_ok, he, hv]
    refine ⟨fun r hr hb => ?_, fun hgood hd => ?_⟩
    · have e : addStmt x s v = .notScattering := by simp [addStmt, scatOf, hr, hb, Res.bind]
      rw [hf, e]; rfl
    · have e : addStmt x s v = .crash := by
        cases hq : s.scat with
        | none => simp [addStmt, scatOf, hq, hd, Res.bind]
        | some q => simp [addStmt, scatOf, hq, hgood q hq, hd, Res.bind]
      rw [hf, e]; rfl

/-- **C74, the language.**  A scop that is imported makes the output Fortran if its language is exactly
    "FORTRAN", and C for any other language. -/
theorem C74_language (p : Scop R) (r : Option D × UD D S Unit × Bool)
    (h : readOpenScop x (some p) = .ok r) :
    fromScop x p = .ok r.2.1 ∧ r.1 = p.context.map x.toDom ∧
      ∃ l, p.language = some l ∧ (r.2.2 = true ↔ l = [70, 79, 82, 84, 82, 65, 78]) := by
  simp only [readOpenScop, inputFromScop, languageOf] at h
  cases hf : fromScop x p with
  | ok ud =>
    rw [hf, bind_ok, bind_ok] at h
    cases hl : p.language with
    | none => rw [hl] at h; cases h
    | some l =>
      rw [hl] at h
      simp only [Res.bind, Res.ok.injEq] at h
      subst h
      exact ⟨rfl, rfl, l, rfl, by unfold fortranName; exact decide_eq_true_iff⟩
  | die e => rw [hf] at h; cases h
  | notScattering => rw [hf] at h; cases h
  | crash => rw [hf] at h; cases h

/-! ## Examples -/

/-- Relations are (dimensions, parameters, is it a scattering). -/
def exExt : Ext (Nat × Nat × Bool) Nat Nat where
  nbPar r := r.2.1
  isScat r := r.2.2
  toDom r := r.1
  toScat r := r.1
  dim := id
  sdim := id
  normalize := id

/-- Two statements of dimensions 1 and 2, scatterings of dimension 3, two parameters, one of which is
    named. -/
def exScop : Scop (Nat × Nat × Bool) where
  context := some (0, 2, false)
  params := some [[78]]
  stmts := [⟨some (1, 2, false), some (3, 2, true)⟩, ⟨some (2, 2, false), some (3, 2, true)⟩]
  scatnames := some [[97], [98], [99], [100]]
  language := some [67]

/-- What is seen of a result. -/
def view : Res (UD Nat Nat Unit) → Option (List Nat × List (Option Nat) × List (Option CStr) ×
    List (Option CStr) × List (Option CStr))
  | .ok ud => some (ud.domains.map Named.dom, ud.domains.map Named.scat, makeNames id ud .param,
      makeNames id ud .iter, makeNames id ud .scat)
  | _ => none

example : view (fromScop exExt exScop) = some ([1, 2], [some 3, some 3], [some [78], none],
    [some [105], some [106]], [some [97], some [98], some [99]]) := rfl
example : (pNames exScop).length ≤ nPar exExt exScop := by decide
example : ∀ s ∈ exExt.normalize exScop.stmts, GoodStmt exExt s := by
  intro s hs
  simp only [exExt, exScop, id, List.mem_cons, List.not_mem_nil, or_false] at hs
  rcases hs with rfl | rfl <;> simp [GoodStmt, exExt]
/-- Too many names. -/
example : fromScop exExt { exScop with params := some [[78], [77], [80]] } = .die .range :=
  (C74_refused exExt _).1 (by decide)
/-- A domain given as the scattering of the second statement. -/
example : fromScop exExt { exScop with stmts := [⟨some (1, 2, false), some (3, 2, true)⟩,
    ⟨some (2, 2, false), some (3, 2, false)⟩] } = .notScattering := rfl
/-- "Fortran" is not "FORTRAN". -/
example : (match readOpenScop exExt (some { exScop with language := some [70, 111, 114, 116, 114, 97, 110] })
    with | .ok r => some r.2.2 | _ => none) = some false := by decide
example : (match readOpenScop exExt (some { exScop with language := some [70, 79, 82, 84, 82, 65, 78] })
    with | .ok r => some r.2.2 | _ => none) = some true := by decide

/-- **C74 does not hold fully**: a scop that names only some of its parameters leaves the others without
    a name, not even a default one. -/
theorem C74_unnamed_parameter : ∃ (x : Ext (Nat × Nat × Bool) Nat Nat) (p : Scop (Nat × Nat × Bool)) (ud : UD Nat Nat Unit),
    (∀ s ∈ x.normalize p.stmts, GoodStmt x s) ∧ (pNames p).length ≤ nPar x p ∧ fromScop x p = .ok ud ∧
      none ∈ makeNames x.sdim ud .param := by
  refine ⟨exExt, exScop, _, ?_, by decide, rfl, by decide⟩
  intro s hs
  simp only [exExt, exScop, id, List.mem_cons, List.not_mem_nil, or_false] at hs
  rcases hs with rfl | rfl <;> simp [GoodStmt, exExt]

end Verif.Props.OslImport
