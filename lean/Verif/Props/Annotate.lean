import Verif.Model.Annotate
import Verif.Props.Filter
import Verif.Props.Parallel

/-!
# C67: loop annotations of OpenScop specifications;  C68: text around a SCoP
-/

namespace Verif.Props.Annotate
open Verif.PText Verif.ProgText Verif.Annotate Verif.Filter Verif.Props.Filter

/-! ## Annotations: specification -/

/-- The annotation is about a loop with this iterator around this body. -/
def About (ty : FType) (a : Ann) (iter : String) (body : List Node) : Prop := Accepts ⟨a.iter, a.stmts, ty⟩ iter body

/-- What is taken from the last annotation that is about the loop and has something to take. -/
def LastOf {α : Type} (anns : List Ann) (P : Ann → Prop) (g : Ann → Option α) (r : Option α) : Prop :=
  (r = none ∧ ∀ a ∈ anns, P a → g a = none) ∨
  ∃ pre a post v, anns = pre ++ a :: post ∧ P a ∧ g a = some v ∧ r = some v ∧ ∀ b ∈ post, P b → g b = none

/-- The loops of a tree are different objects. -/
def Distinct (root : List Node) : Prop := ((loopsIn root).map (·.1)).Nodup

/-! ## Annotations: proofs -/

theorem foldl_upd (g : Attr → Attr) : ∀ (ls : List Nat), ls.Nodup → ∀ (f : Nat → Attr) (x : Nat),
    ls.foldl (fun f x => upd f x (g (f x))) f x = if x ∈ ls then g (f x) else f x
  | [], _, f, x => by simp
  | y :: ls, h, f, x => by
    obtain ⟨hy, hls⟩ := List.nodup_cons.1 h
    rw [List.foldl_cons, foldl_upd g ls hls]
    by_cases hxy : x = y
    · subst hxy
      simp [hy, upd]
    · simp [upd, hxy]

theorem annotate1_attr (ty : FType) (root : List Node) (s : St) (a : Ann) (x : Nat) :
    (annotate1 ty root s a).attr x =
      if x ∈ (Filter.filter (filt ty a) root).loops then mark a (s.attr x) else s.attr x := by
  unfold annotate1
  dsimp only
  split
  · rename_i h
    rw [List.isEmpty_iff] at h
    simp [h]
  · exact foldl_upd (mark a) _ (C34_no_duplicates _ _).1 _ _

theorem annotate1_warnings (ty : FType) (root : List Node) (s : St) (a : Ann) :
    (annotate1 ty root s a).warnings =
      s.warnings + if (Filter.filter (filt ty a) root).loops = [] then 1 else 0 := by
  unfold annotate1
  dsimp only
  by_cases h : (Filter.filter (filt ty a) root).loops = []
  · simp [h]
  · simp [h]

/-- The fields of a loop, given which annotations are about it. -/
def marks (P : Ann → Prop) [DecidablePred P] (anns : List Ann) (t : Attr) : Attr :=
  anns.foldl (fun t a => if P a then mark a t else t) t

theorem annotate_attr (ty : FType) (root : List Node) (x : Nat) : ∀ (anns : List Ann) (s : St),
    (annotate ty root anns s).attr x =
      marks (fun a => x ∈ (Filter.filter (filt ty a) root).loops) anns (s.attr x)
  | [], s => rfl
  | a :: anns, s => by
    have := annotate_attr ty root x anns (annotate1 ty root s a)
    unfold annotate marks at this ⊢
    rw [List.foldl_cons, this, List.foldl_cons, annotate1_attr]

theorem mark_omp (a : Ann) (t : Attr) : (mark a t).omp = (t.omp || a.omp) := by
  rcases t with ⟨_ | _, _, _, _, _, _, _, _⟩ <;> rcases a with ⟨_, _, _ | _, _, _ | _, _ | _, _ | _, _ | _⟩ <;> rfl
theorem mark_vec (a : Ann) (t : Attr) : (mark a t).vec = (t.vec || a.vec) := by
  rcases t with ⟨_, _, _ | _, _, _, _, _, _⟩ <;> rcases a with ⟨_, _, _ | _, _, _ | _, _ | _, _ | _, _ | _⟩ <;> rfl
theorem mark_user (a : Ann) (t : Attr) : (mark a t).user = (t.user || a.user) := by
  rcases t with ⟨_, _, _, _ | _, _, _, _, _⟩ <;> rcases a with ⟨_, _, _ | _, _, _ | _, _ | _, _ | _, _ | _⟩ <;> rfl
theorem mark_rest (a : Ann) (t : Attr) : (mark a t).mpi = t.mpi ∧ (mark a t).reductionVars = t.reductionVars ∧
    (mark a t).timeVar = t.timeVar := by
  rcases a with ⟨_, _, _ | _, _, _ | _, _ | _, _ | _, _ | _⟩ <;> exact ⟨rfl, rfl, rfl⟩
/-- The variables an annotation makes private. -/
def privates (a : Ann) : Option String := if a.omp then a.privateVars else none
/-- The directive of an annotation. -/
def userText (a : Ann) : Option String := if a.user then a.directive else none
theorem mark_privates (a : Ann) (t : Attr) : (mark a t).privateVars = (privates a).orElse fun _ => t.privateVars := by
  rcases a with ⟨_, _, _ | _, _, _ | _, _ | _, _ | _, _ | _⟩ <;> rfl
theorem mark_userText (a : Ann) (t : Attr) : (mark a t).directive = (userText a).orElse fun _ => t.directive := by
  rcases a with ⟨_, _, _ | _, _, _ | _, _ | _, _ | _, _ | _⟩ <;> rfl

theorem marks_bool (P : Ann → Prop) [DecidablePred P] {f : Attr → Bool} {g : Ann → Bool}
    (h : ∀ a t, f (mark a t) = (f t || g a)) : ∀ (anns : List Ann) (t : Attr),
    (f (marks P anns t) = true ↔ f t = true ∨ ∃ a ∈ anns, P a ∧ g a = true)
  | [], t => by simp [marks]
  | a :: anns, t => by
    have ih := marks_bool P h anns (if P a then mark a t else t)
    unfold marks at ih ⊢
    rw [List.foldl_cons, ih]
    by_cases hp : P a
    · simp only [hp, if_true, h, Bool.or_eq_true, List.mem_cons, exists_eq_or_imp, true_and]
      tauto
    · simp only [hp, if_false, List.mem_cons, exists_eq_or_imp, false_and, false_or]

theorem marks_rest (P : Ann → Prop) [DecidablePred P] : ∀ (anns : List Ann) (t : Attr),
    (marks P anns t).mpi = t.mpi ∧ (marks P anns t).reductionVars = t.reductionVars ∧
    (marks P anns t).timeVar = t.timeVar
  | [], t => ⟨rfl, rfl, rfl⟩
  | a :: anns, t => by
    have ih := marks_rest P anns (if P a then mark a t else t)
    unfold marks at ih ⊢
    rw [List.foldl_cons]
    refine ⟨ih.1.trans ?_, ih.2.1.trans ?_, ih.2.2.trans ?_⟩ <;> split
    · exact (mark_rest a t).1
    · rfl
    · exact (mark_rest a t).2.1
    · rfl
    · exact (mark_rest a t).2.2
    · rfl

theorem marks_last (P : Ann → Prop) [DecidablePred P] {α : Type} {f : Attr → Option α} {g : Ann → Option α}
    (h : ∀ a t, f (mark a t) = (g a).orElse fun _ => f t) : ∀ (anns : List Ann) (t : Attr),
    (f (marks P anns t) = f t ∧ ∀ a ∈ anns, P a → g a = none) ∨
    ∃ pre a post v, anns = pre ++ a :: post ∧ P a ∧ g a = some v ∧ f (marks P anns t) = some v ∧
      ∀ b ∈ post, P b → g b = none
  | [], t => Or.inl ⟨rfl, by simp⟩
  | a :: anns, t => by
    have e : marks P (a :: anns) t = marks P anns (if P a then mark a t else t) := rfl
    rcases marks_last P h anns (if P a then mark a t else t) with ⟨h1, h2⟩ | ⟨pre, b, post, v, rfl, h2, h3, h4, h5⟩
    · by_cases hp : P a
      · rw [if_pos hp] at h1 e
        rw [h] at h1
        cases hg : g a with
        | none =>
          refine Or.inl ⟨?_, ?_⟩
          · rw [e, h1, hg]; rfl
          · rintro b hb hpb
            rcases List.mem_cons.1 hb with rfl | hb
            · exact hg
            · exact h2 b hb hpb
        | some v =>
          refine Or.inr ⟨[], a, anns, v, rfl, hp, hg, ?_, h2⟩
          rw [e, h1, hg]; rfl
      · rw [if_neg hp] at h1 e
        refine Or.inl ⟨by rw [e, h1], ?_⟩
        rintro b hb hpb
        rcases List.mem_cons.1 hb with rfl | hb
        · exact absurd hpb hp
        · exact h2 b hb hpb
    · exact Or.inr ⟨a :: pre, b, post, v, rfl, h2, h3, by rw [e]; exact h4, h5⟩

theorem distinct_eq {root : List Node} (hd : Distinct root) {x : Nat} {it it' : String} {b b' : List Node}
    (h : (x, it, b) ∈ loopsIn root) (h' : (x, it', b') ∈ loopsIn root) : it' = it ∧ b' = b := by
  have := List.inj_on_of_nodup_map hd h' h rfl
  simp only [Prod.mk.injEq, true_and] at this
  exact this

/-- The annotations that reach a loop are those about it. -/
theorem reaches {ty : FType} {root : List Node} (hp : plainList root = true) (hd : Distinct root) {a : Ann}
    (ha : ty = .exact → ∀ l, a.stmts = some l → l.Nodup) {x : Nat} {it : String} {b : List Node}
    (hx : (x, it, b) ∈ loopsIn root) :
    x ∈ (Filter.filter (filt ty a) root).loops ↔ About ty a it b := by
  rw [(C34_filter_partial (filt ty a) root hp fun fs h1 h2 => ha h2 fs h1).2 x]
  constructor
  · rintro ⟨it', b', h1, h2⟩
    obtain ⟨rfl, rfl⟩ := distinct_eq hd hx h1
    exact h2
  · exact fun h => ⟨it, b, hx, h⟩

/-- **C67.**  In a tree of new loops without assignments and blocks: a loop is marked for OpenMP, for
    vectorisation or for the directive of a user exactly if some annotation about it (same iterator, and
    the statements in the loop are among or exactly those of the annotation) says so; its private variables
    and its directive are those of the last annotation about it that has some; and there is one warning for
    every annotation that is about no loop.
    Partial: false of trees with assignments or blocks (`C67_lost`, `C67_wrong_loop`). -/
theorem C67_annotations_partial (ty : FType) (root : List Node) (hp : plainList root = true) (hd : Distinct root)
    (anns : List Ann) (ha : ty = .exact → ∀ a ∈ anns, ∀ l, a.stmts = some l → l.Nodup) :
    (∀ x it b, (x, it, b) ∈ loopsIn root →
      let t := (annotate ty root anns fresh).attr x
      (t.omp = true ↔ ∃ a ∈ anns, About ty a it b ∧ a.omp = true) ∧
      (t.vec = true ↔ ∃ a ∈ anns, About ty a it b ∧ a.vec = true) ∧
      (t.user = true ↔ ∃ a ∈ anns, About ty a it b ∧ a.user = true) ∧
      LastOf anns (fun a => About ty a it b ∧ a.omp = true) (·.privateVars) t.privateVars ∧
      LastOf anns (fun a => About ty a it b ∧ a.user = true) (·.directive) t.directive) ∧
    ∃ l : List Ann, l.Sublist anns ∧ (annotate ty root anns fresh).warnings = l.length ∧
      ∀ a ∈ anns, (a ∈ l ↔ ∀ x it b, (x, it, b) ∈ loopsIn root → ¬ About ty a it b) := by
  constructor
  · intro x it b hx
    dsimp only
    have hr : ∀ a ∈ anns, (x ∈ (Filter.filter (filt ty a) root).loops ↔ About ty a it b) := fun a h =>
      reaches hp hd (fun h1 l h2 => ha h1 a h l h2) hx
    rw [annotate_attr]
    have hb : ∀ g : Ann → Bool, (∃ a ∈ anns, x ∈ (Filter.filter (filt ty a) root).loops ∧ g a = true) ↔
        ∃ a ∈ anns, About ty a it b ∧ g a = true := fun g =>
      ⟨fun ⟨a, h1, h2, h3⟩ => ⟨a, h1, (hr a h1).1 h2, h3⟩, fun ⟨a, h1, h2, h3⟩ => ⟨a, h1, (hr a h1).2 h2, h3⟩⟩
    refine ⟨?_, ?_, ?_, ?_, ?_⟩
    · rw [marks_bool _ mark_omp, hb]; simp [fresh]
    · rw [marks_bool _ mark_vec, hb]; simp [fresh]
    · rw [marks_bool _ mark_user, hb]; simp [fresh]
    · rcases marks_last (fun a => x ∈ (Filter.filter (filt ty a) root).loops) mark_privates anns (fresh.attr x) with
        ⟨h1, h2⟩ | ⟨pre, a, post, v, h1, h2, h3, h4, h5⟩
      · refine Or.inl ⟨h1, fun a h3 h4 => ?_⟩
        have := h2 a h3 ((hr a h3).2 h4.1)
        simpa [privates, h4.2] using this
      · have hm : ∀ c ∈ a :: post, c ∈ anns := fun c hc => by rw [h1]; exact List.mem_append_right _ hc
        unfold privates at h3
        split at h3
        · rename_i ho
          refine Or.inr ⟨pre, a, post, v, h1, ⟨(hr a (hm a (by simp))).1 h2, ho⟩, h3, h4, fun c hc hc' => ?_⟩
          have hc2 := hm c (List.mem_cons_of_mem _ hc)
          have := h5 c hc ((hr c hc2).2 hc'.1)
          simpa [privates, hc'.2] using this
        · simp at h3
    · rcases marks_last (fun a => x ∈ (Filter.filter (filt ty a) root).loops) mark_userText anns (fresh.attr x) with
        ⟨h1, h2⟩ | ⟨pre, a, post, v, h1, h2, h3, h4, h5⟩
      · refine Or.inl ⟨h1, fun a h3 h4 => ?_⟩
        have := h2 a h3 ((hr a h3).2 h4.1)
        simpa [userText, h4.2] using this
      · have hm : ∀ c ∈ a :: post, c ∈ anns := fun c hc => by rw [h1]; exact List.mem_append_right _ hc
        unfold userText at h3
        split at h3
        · rename_i ho
          refine Or.inr ⟨pre, a, post, v, h1, ⟨(hr a (hm a (by simp))).1 h2, ho⟩, h3, h4, fun c hc hc' => ?_⟩
          have hc2 := hm c (List.mem_cons_of_mem _ hc)
          have := h5 c hc ((hr c hc2).2 hc'.1)
          simpa [userText, hc'.2] using this
        · simp at h3
  · have hw : ∀ (l : List Ann) (s : St), (annotate ty root l s).warnings =
        s.warnings + (l.filter fun a => decide ((Filter.filter (filt ty a) root).loops = [])).length := by
      intro l
      induction l with
      | nil => intro s; rfl
      | cons a l ih =>
        intro s
        have e : annotate ty root (a :: l) s = annotate ty root l (annotate1 ty root s a) := rfl
        rw [e, ih, annotate1_warnings, List.filter_cons]
        by_cases hc : (Filter.filter (filt ty a) root).loops = []
        · simp [hc]; omega
        · simp [hc]
    refine ⟨anns.filter fun a => decide ((Filter.filter (filt ty a) root).loops = []), List.filter_sublist,
      by rw [hw]; simp [fresh], fun a h => ?_⟩
    rw [List.mem_filter, decide_eq_true_iff, List.eq_nil_iff_forall_not_mem]
    constructor
    · rintro ⟨_, h1⟩ x it b hx hab
      exact h1 x ((reaches hp hd (fun h1 l h2 => ha h1 a h l h2) hx).2 hab)
    · refine fun h1 => ⟨h, fun x hx => ?_⟩
      obtain ⟨it, b, h2, h3⟩ := ((C34_filter_partial (filt ty a) root hp fun fs h1 h2 => ha h2 a h fs h1).2 x).1 hx
      exact h1 x it b h2 h3

/-- Two nested loops. -/
def exTree : List Node := [.root, .loop 1 "i" [.user 1, .guard [.loop 2 "j" [.user 2]]], .loop 3 "i" [.user 1]]

/-- Annotations of the inner loop and of a loop that does not exist. -/
def exAnns : List Ann := [{ iter := some "j", stmts := some [2], omp := true, privateVars := some "k" },
  { iter := some "k", stmts := none, vec := true }, { iter := none, stmts := some [2, 3], omp := true, privateVars := some "t" }]

theorem exTree_distinct : Distinct exTree := by
  simp [Distinct, exTree, loopsIn, loopsOf]

example : ((annotate .subset exTree exAnns fresh).attr 2).omp = true ∧
    ((annotate .subset exTree exAnns fresh).attr 1).omp = false := by
  have h := C67_annotations_partial .subset exTree (by simp [exTree, plainList, plain]) exTree_distinct exAnns (by simp)
  constructor
  · rw [(h.1 2 "j" [.user 2] (by simp [exTree, loopsIn, loopsOf])).1]
    exact ⟨_, List.mem_cons_self, ⟨by simp, by simp [stmtsIn, stmtsOf]⟩, rfl⟩
  · rw [← Bool.not_eq_true, (h.1 1 "i" [.user 1, .guard [.loop 2 "j" [.user 2]]] (by simp [exTree, loopsIn, loopsOf])).1]
    rintro ⟨a, ha, h1, h2⟩
    simp only [exAnns, List.mem_cons, List.not_mem_nil, or_false] at ha
    rcases ha with rfl | rfl | rfl
    · exact absurd (h1.1 "j" rfl) (by decide)
    · simp at h2
    · have := (h1.2 [2, 3] rfl).1 1 (by simp [stmtsIn, stmtsOf]); simp at this

example : ((annotate .subset exTree exAnns fresh).attr 2).privateVars = some "t" ∧
    (annotate .subset exTree exAnns fresh).warnings = 1 := by
  constructor <;> simp [annotate, annotate1, exAnns, exTree, Filter.filter, filterNode, filt, wants, listCompare, addIfNew,
    Res.concat, concatIfNew, fresh, upd, mark, markUser, markOmp, markVec]

/-- **C67, other fields.**  Annotations never set the field for MPI, reduction variables or time
    variables, whatever the annotation says: a directive for MPI is dropped without a warning. -/
theorem C67_mpi_dropped (ty : FType) (root : List Node) (anns : List Ann) (x : Nat) :
    ((annotate ty root anns fresh).attr x).mpi = false ∧
    ((annotate ty root anns fresh).attr x).reductionVars = none ∧
    ((annotate ty root anns fresh).attr x).timeVar = none := by
  rw [annotate_attr]
  exact marks_rest _ anns (fresh.attr x)

/-- **C67, lost annotations.**  A loop after an assignment or a block, here with the very iterator and
    statement of the annotation, is never marked, in every tree of this form and for every annotation. -/
theorem C67_lost (ty : FType) (n : Node) (h : n = .assign ∨ ∃ b, n = .block b) (l : List Node) (anns : List Ann) (x : Nat) :
    (annotate ty (n :: l) anns fresh).attr x = {} ∧ (annotate ty (n :: l) anns fresh).warnings = anns.length := by
  have hn : ∀ f, (Filter.filter f (n :: l)).loops = [] := by
    intro f
    rcases h with rfl | ⟨b, rfl⟩
    · exact (C34_after_assignment f l).2
    · exact (C34_after_block f b l).2
  have : ∀ (anns : List Ann) (s : St), annotate ty (n :: l) anns s = { s with warnings := s.warnings + anns.length } := by
    intro anns
    induction anns with
    | nil => intro s; rfl
    | cons a anns ih =>
      intro s
      have e : annotate ty (n :: l) (a :: anns) s = annotate ty (n :: l) anns (annotate1 ty (n :: l) s a) := rfl
      rw [e, ih]
      unfold annotate1
      dsimp only
      rw [hn]
      simp only [List.isEmpty_nil, if_true, List.length_cons]
      congr 1
      omega
  rw [this]
  exact ⟨rfl, by simp [fresh]⟩

/-- **C67, wrong loop.**  An annotation about loops around statement 1 marks a loop around an assignment and
    statement 2 as parallel. -/
theorem C67_wrong_loop : ∃ a root, (annotate .subset root [a] fresh).attr 7 = { omp := true } ∧ Distinct root ∧
    ∃ it b, (7, it, b) ∈ loopsIn root ∧ ¬ About .subset a it b := by
  refine ⟨{ iter := none, stmts := some [1], omp := true }, [.loop 7 "i" [.assign, .user 2]], ?_,
    by simp [Distinct, loopsIn, loopsOf], "i", [.assign, .user 2], by simp [loopsIn, loopsOf], fun h => ?_⟩
  · simp [annotate, annotate1, Filter.filter, filterNode, filt, wants, listCompare, addIfNew,
      Res.concat, concatIfNew, fresh, upd, mark, markUser, markOmp, markVec]
  · have := (h.2 [1] rfl).1 2 (by simp [stmtsIn, stmtsOf])
    simp at this

/-! ## Declarations -/

/-- The names that the declarations declare. -/
def declared (coords : Bool) (p : Prog) (anns : List Ann) : List String := (groups coords p anns).flatMap (·.2)

/-- **C67, declarations.**  In every tree (with assignments and blocks too): the two variables that stand for
    the bounds of a loop that is printed as parallel are among the names declared before the code. -/
theorem C67_bounds_declared (ty : FType) (root : List Node) (anns : List Ann) (x : Nat) (coords : Bool) (p : Prog)
    (h : Parallel.par ((annotate ty root anns fresh).attr x) = true) :
    (Parallel.headVars ((annotate ty root anns fresh).attr x)).1 ∈ declared coords p anns ∧
    (Parallel.headVars ((annotate ty root anns fresh).attr x)).2 ∈ declared coords p anns := by
  have hm := (C67_mpi_dropped ty root anns x).1
  have ho := marks_bool (fun a => x ∈ (Filter.filter (filt ty a) root).loops) mark_omp anns (fresh.attr x)
  have hv := marks_bool (fun a => x ∈ (Filter.filter (filt ty a) root).loops) mark_vec anns (fresh.attr x)
  rw [← annotate_attr] at ho hv
  unfold Parallel.par at h
  unfold Parallel.headVars
  rw [hm] at h ⊢
  simp only [Bool.or_false] at h ⊢
  unfold declared groups flags
  by_cases h1 : ((annotate ty root anns fresh).attr x).omp = true
  · obtain h2 | ⟨a, ha, _, h2⟩ := ho.1 h1
    · simp [fresh] at h2
    have : (anns.any fun a => a.omp) = true := List.any_eq_true.2 ⟨a, ha, h2⟩
    simp [h1, this]
  · have h2 : ((annotate ty root anns fresh).attr x).vec = true := by simpa [h1] using h
    obtain h3 | ⟨a, ha, _, h3⟩ := hv.1 h2
    · simp [fresh] at h3
    have : (anns.any fun a => a.vec) = true := List.any_eq_true.2 ⟨a, ha, h3⟩
    simp [h1, this]

example : Parallel.par ((annotate .subset exTree exAnns fresh).attr 2) = true := by
  have h := C67_annotations_partial .subset exTree (by simp [exTree, plainList, plain]) exTree_distinct exAnns (by simp)
  unfold Parallel.par
  rw [((h.1 2 "j" [.user 2] (by simp [exTree, loopsIn, loopsOf])).1).2
    ⟨_, List.mem_cons_self, ⟨by simp, by simp [stmtsIn, stmtsOf]⟩, rfl⟩]
  rfl

/-- **C67, directives of users.**  A directive of a user without OpenMP changes nothing in the text: what is
    printed before the loop and in its head is the same as without the directive. -/
theorem C67_user_ignored (t : Attr) (ho : t.omp = false) (n : Nat) (lb ub : Option Clast.Expr)
    (it : String) (st : Int) (l : Lang) :
    beforeC n lb ub t = beforeC n lb ub { t with user := false, directive := none } ∧
    headC l it lb ub st t = headC l it lb ub st { t with user := false, directive := none } := by
  constructor
  · simp [beforeC, ho, clausesC]
  · cases lb <;> cases ub <;> rfl

/-- The iterators of the statements are declared before the code, or the printed text has the original file
    around the code. -/
def ItersKnown (s : Scop) (p : Prog) : Prop :=
  (∀ x ∈ p.iters, x ∈ declared s.coords.isSome p s.anns) ∨ s.open_.isSome = true

/-- **C67, iterators.**  Without coordinates, and with coordinates in a file that can be opened, the iterators
    are known.  If the file cannot be opened, no iterator is declared (but for names of bounds), although the
    code is printed without the file. -/
theorem C67_iterators_partial (s : Scop) (p : Prog) :
    ((s.coords = none ∨ s.file.isSome = true) → ItersKnown s p) ∧
    (s.coords.isSome = true → s.file = none → ∀ x ∈ p.iters, x ∉ ["lbp", "ubp", "lbv", "ubv"] →
      x ∉ declared s.coords.isSome p s.anns ∧ s.open_ = none) := by
  constructor
  · intro h
    unfold ItersKnown
    cases hc : s.coords with
    | none =>
      left
      intro x hx
      have : p.iters.isEmpty = false := by cases hp : p.iters <;> simp_all
      unfold declared groups
      simp only [Option.isSome_none, Bool.false_or, this, Bool.false_eq_true, if_false, List.flatMap_append,
        List.mem_append, List.flatMap_cons, List.flatMap_nil, List.append_nil]
      exact Or.inr (Or.inl hx)
    | some c =>
      right
      have hf : s.file.isSome = true := by
        rcases h with h | h
        · simp [hc] at h
        · exact h
      obtain ⟨t, ht⟩ := Option.isSome_iff_exists.1 hf
      simp [Scop.open_, hc, ht]
  · intro h1 h2 x hx hb
    refine ⟨?_, by unfold Scop.open_; rw [h2]; cases s.coords <;> rfl⟩
    have hs : x ∉ ownScat p := by
      unfold ownScat
      simp [hx]
    unfold declared groups
    rw [h1]
    simp only [Bool.true_or, if_true, List.nil_append, List.flatMap_append, List.mem_append, not_or]
    simp only [List.mem_cons, List.not_mem_nil, or_false, not_or] at hb
    refine ⟨?_, ?_, ?_⟩ <;> split <;> simp [hs, hb]

example : ∃ (s : Scop) (p : Prog), ¬ ItersKnown s p :=
  ⟨⟨some ⟨1, 1, 1, 1, 0⟩, none, [], []⟩, ⟨[], ["i"], [], []⟩, by
    have h := (C67_iterators_partial ⟨some ⟨1, 1, 1, 1, 0⟩, none, [], []⟩ ⟨[], ["i"], [], []⟩).2 rfl rfl "i" (by simp) (by decide)
    rintro (h' | h')
    · exact h.1 (h' "i" (by simp))
    · simp [h.2] at h'⟩

/-! ## Text around a SCoP: specification -/

/-- The characters of a text from a place on, with their places: lines and columns count from 1, and the end
    of a line belongs to the line. -/
def places : Nat → Nat → List Char → List ((Nat × Nat) × Char)
  | _, _, [] => []
  | l, c, ch :: t => ((l, c), ch) :: (if ch = '\n' then places (l + 1) 1 t else places l (c + 1) t)

/-- The place behind the last character. -/
def endPlace : Nat → Nat → List Char → Nat × Nat
  | l, c, [] => (l, c)
  | l, c, ch :: t => if ch = '\n' then endPlace (l + 1) 1 t else endPlace l (c + 1) t

/-- One place is before another. -/
def Before (p q : Nat × Nat) : Prop := p.1 < q.1 ∨ (p.1 = q.1 ∧ p.2 < q.2)

instance (p q : Nat × Nat) : Decidable (Before p q) := by unfold Before; infer_instance

/-- The characters before a place. -/
def textBefore (q : Nat × Nat) (t : List Char) : List Char :=
  ((places 1 1 t).filter fun x => decide (Before x.1 q)).map (·.2)

/-- The characters after a place. -/
def textAfter (q : Nat × Nat) (t : List Char) : List Char :=
  ((places 1 1 t).filter fun x => decide (Before q x.1)).map (·.2)

/-- There is such a place in the text. -/
def IsPlace (q : Nat × Nat) (t : List Char) : Prop := q ∈ (places 1 1 t).map (·.1) ∨ q = endPlace 1 1 t

/-! ## Text around a SCoP: proofs -/

theorem places_ge : ∀ (t : List Char) (l c : Nat) (x), x ∈ places l c t → ¬ Before x.1 (l, c)
  | [], l, c, x, h => by simp [places] at h
  | ch :: t, l, c, x, h => by
    unfold places at h
    rcases List.mem_cons.1 h with rfl | h
    · unfold Before; simp
    · split at h
      · have := places_ge t _ _ x h
        unfold Before at this ⊢
        simp only at this ⊢
        omega
      · have := places_ge t _ _ x h
        unfold Before at this ⊢
        simp only at this ⊢
        omega

theorem endPlace_ge : ∀ (t : List Char) (l c : Nat), ¬ Before (endPlace l c t) (l, c)
  | [], l, c => by unfold endPlace Before; simp
  | ch :: t, l, c => by
    unfold endPlace
    split
    · have := endPlace_ge t (l + 1) 1
      unfold Before at this ⊢
      simp only at this ⊢
      omega
    · have := endPlace_ge t l (c + 1)
      unfold Before at this ⊢
      simp only at this ⊢
      omega

theorem copyAfter_eq (c : Coords) (l0 c0 : Nat) (h1 : c.lineEnd = l0) (h2 : c.columnEnd = c0) :
    ∀ (t : List Char) (l k : Nat), copyAfter c t ((l : Int) - 1) ((k : Int) - 1) =
      ((places l k t).filter fun x => decide (Before (l0, c0) x.1)).map (·.2)
  | [], l, k => rfl
  | ch :: t, l, k => by
    unfold copyAfter places
    have e : (((l : Int) - 1 = c.lineEnd - 1 ∧ (k : Int) - 1 + 1 > c.columnEnd) ∨ (l : Int) - 1 > c.lineEnd - 1) ↔
        Before (l0, c0) (l, k) := by
      unfold Before; rw [h1, h2]; simp only; omega
    have ih1 := copyAfter_eq c l0 c0 h1 h2 t (l + 1) 1
    have ih2 := copyAfter_eq c l0 c0 h1 h2 t l (k + 1)
    have e1 : ((l : Int) - 1 + 1) = ((l + 1 : Nat) : Int) - 1 := by omega
    have e2 : ((k : Int) - 1 + 1) = ((k + 1 : Nat) : Int) - 1 := by omega
    have e3 : (0 : Int) = ((1 : Nat) : Int) - 1 := by omega
    rw [List.filter_cons]
    simp only [e]
    by_cases hb : Before (l0, c0) (l, k)
    · simp only [hb, if_true, decide_true, List.map_cons, List.cons_append, List.nil_append]
      congr 1
      split
      · rw [e1, e3, ih1]
      · rw [e2, ih2]
    · simp only [hb, if_false, decide_false, Bool.false_eq_true, List.nil_append]
      split
      · rw [e1, e3, ih1]
      · rw [e2, ih2]

theorem copyBefore_eq (c : Coords) (l0 c0 : Nat) (h1 : c.lineStart = l0) (h2 : c.columnStart ≤ c0)
    (h3 : (c0 : Int) ≤ max c.columnStart 1) :
    ∀ (t : List Char) (l k : Nat), 1 ≤ k → ¬ Before (l0, c0) (l, k) →
      ((l0, c0) ∈ (places l k t).map (·.1) ∨ (l0, c0) = endPlace l k t) →
      ∃ rest, copyBefore c t ((l : Int) - 1) ((k : Int) - 1) =
        (((places l k t).filter fun x => decide (Before x.1 (l0, c0))).map (·.2),
          ⟨rest, (l0 : Int) - 1, (c0 : Int) - 1, false⟩) ∧
        places l0 c0 rest = (places l k t).filter fun x => !decide (Before x.1 (l0, c0))
  | t, l, k, hk, hb, hp => by
    have hc : ((l : Int) - 1 < c.lineStart - 1 ∨ (k : Int) - 1 < c.columnStart - 1) ↔ Before (l, k) (l0, c0) := by
      unfold Before at hb ⊢
      rw [h1]
      simp only at hb ⊢
      omega
    by_cases hbb : Before (l, k) (l0, c0)
    · cases t with
      | nil =>
        exfalso
        rcases hp with hp | hp
        · simp [places] at hp
        · unfold endPlace at hp
          rw [hp] at hbb
          unfold Before at hbb
          simp only at hbb
          omega
      | cons ch t =>
        unfold copyBefore
        rw [if_pos (hc.2 hbb)]
        have ep : places l k (ch :: t) = ((l, k), ch) :: (if ch = '\n' then places (l + 1) 1 t else places l (k + 1) t) := rfl
        rw [ep, List.filter_cons, List.filter_cons]
        simp only [hbb, decide_true, if_true, List.map_cons, Bool.not_true, Bool.false_eq_true, if_false]
        unfold places endPlace at hp
        by_cases hn : ch = '\n'
        · simp only [hn, if_true, List.map_cons, List.mem_cons] at hp ⊢
          have hp' : (l0, c0) ∈ (places (l + 1) 1 t).map (·.1) ∨ (l0, c0) = endPlace (l + 1) 1 t := by
            rcases hp with (hp | hp) | hp
            · exfalso
              rw [hp] at hbb
              unfold Before at hbb
              simp only at hbb
              omega
            · exact Or.inl hp
            · exact Or.inr hp
          have hb' : ¬ Before (l0, c0) (l + 1, 1) := by
            rcases hp' with hp' | hp'
            · obtain ⟨x, hx, hx'⟩ := List.mem_map.1 hp'
              rw [← hx']
              exact places_ge t _ _ x hx
            · rw [hp']
              exact endPlace_ge t _ _
          obtain ⟨rest, e1, e2⟩ := copyBefore_eq c l0 c0 h1 h2 h3 t (l + 1) 1 (le_refl _) hb' hp'
          refine ⟨rest, ?_, e2⟩
          have e3 : ((l : Int) - 1 + 1) = ((l + 1 : Nat) : Int) - 1 := by omega
          have e4 : (0 : Int) = ((1 : Nat) : Int) - 1 := by omega
          rw [e3, e4, e1]
        · simp only [hn, if_false, List.map_cons, List.mem_cons] at hp ⊢
          have hp' : (l0, c0) ∈ (places l (k + 1) t).map (·.1) ∨ (l0, c0) = endPlace l (k + 1) t := by
            rcases hp with (hp | hp) | hp
            · exfalso
              rw [hp] at hbb
              unfold Before at hbb
              simp only at hbb
              omega
            · exact Or.inl hp
            · exact Or.inr hp
          have hb' : ¬ Before (l0, c0) (l, k + 1) := by
            unfold Before at hbb hb ⊢
            simp only at hbb hb ⊢
            omega
          obtain ⟨rest, e1, e2⟩ := copyBefore_eq c l0 c0 h1 h2 h3 t l (k + 1) (by omega) hb' hp'
          refine ⟨rest, ?_, e2⟩
          have e4 : ((k : Int) - 1 + 1) = ((k + 1 : Nat) : Int) - 1 := by omega
          rw [e4, e1]
    · have hlk : l = l0 ∧ k = c0 := by
        unfold Before at hb hbb
        simp only at hb hbb
        omega
      obtain ⟨rfl, rfl⟩ := hlk
      refine ⟨t, ?_, ?_⟩
      · unfold copyBefore
        have hn : ¬ ((l : Int) - 1 < c.lineStart - 1 ∨ (k : Int) - 1 < c.columnStart - 1) := fun h => hbb (hc.1 h)
        have : (places l k t).filter (fun x => decide (Before x.1 (l, k))) = [] := by
          rw [List.filter_eq_nil_iff]
          intro x hx
          simpa using places_ge t l k x hx
        cases t <;> simp only [hn, if_false, this, List.map_nil]
      · symm
        rw [List.filter_eq_self]
        intro x hx
        simpa using places_ge t l k x hx
  termination_by t => t.length

/-- **C68.**  If the coordinates name places of the file (a start column 0 stands for the start of a line) and
    the end is not before the start, the text that is printed is: the comment and the macros, the text of the
    file before the SCoP, a new line if there is a start column, the text for the code, and the text of the
    file after the SCoP. -/
theorem C68_surrounding_text (s : Scop) (f : Cfg) (from_ : List Char) (p : Prog) (body : List PStmt)
    (c : Coords) (file : List Char) (hc : s.coords = some c) (hf : s.file = some file)
    (l0 c0 l1 c1 : Nat) (h1 : c.lineStart = l0) (h2 : c.columnStart = c0) (h3 : c.lineEnd = l1) (h4 : c.columnEnd = c1)
    (hp : IsPlace (l0, max c0 1) file) (ho : ¬ Before (l1, c1 + 1) (l0, c0)) :
    oslText s f from_ p body = (s.code f p body).map fun t =>
      comment f.lang from_ ++ (macros ++ (textBefore (l0, max c0 1) file ++
        ((if 0 < c0 then ['\n'] else []) ++ (t ++ textAfter (l1, c1) file)))) := by
  unfold oslText
  have e : s.open_ = some (c, file) := by unfold Scop.open_; rw [hc, hf]
  rw [e]
  dsimp only
  have hb : ¬ Before (l0, max c0 1) (1, 1) := by
    rcases hp with hp | hp
    · obtain ⟨x, hx, hx'⟩ := List.mem_map.1 hp
      rw [← hx']
      exact places_ge file _ _ x hx
    · rw [hp]
      exact endPlace_ge file _ _
  obtain ⟨rest, e1, e2⟩ := copyBefore_eq c l0 (max c0 1) h1 (by omega) (by omega) file 1 1 (le_refl _) hb hp
  have e3 : copyBefore c file 0 0 = copyBefore c file (((1 : Nat) : Int) - 1) (((1 : Nat) : Int) - 1) := rfl
  rw [e3, e1]
  dsimp only
  unfold copyRest
  simp only [Bool.false_eq_true, if_false]
  rw [copyAfter_eq c l1 c1 h3 h4 rest l0 (max c0 1), e2, List.filter_filter]
  have e4 : (places 1 1 file).filter (fun x => decide (Before (l1, c1) x.1) && !decide (Before x.1 (l0, max c0 1))) =
      (places 1 1 file).filter fun x => decide (Before (l1, c1) x.1) := by
    apply List.filter_congr
    intro x hx
    have hx1 := places_ge file 1 1 x hx
    by_cases hq : Before (l1, c1) x.1
    · have : ¬ Before x.1 (l0, max c0 1) := by
        unfold Before at hq ho hx1 ⊢
        simp only at hq ho hx1 ⊢
        omega
      simp [this]
    · simp [hq]
  rw [e4]
  have e5 : (c.columnStart > 0) ↔ 0 < c0 := by omega
  simp only [e5]
  rfl

/-- A file with a SCoP from column 3 of line 2 to column 2 of line 3. -/
def exFile : List Char := "ab\ncdef\nghij\nk".toList

/-- Its coordinates. -/
def exScop : Scop := ⟨some ⟨2, 3, 3, 2, 0⟩, some exFile, [], []⟩

example : textBefore (2, 3) exFile = "ab\ncd".toList ∧ textAfter (3, 2) exFile = "ij\nk".toList := by decide

example (f : Cfg) (body : List PStmt) : oslText exScop f [] ⟨[], [], [], []⟩ body =
    (exScop.code f ⟨[], [], [], []⟩ body).map fun t =>
      comment f.lang [] ++ (macros ++ ("ab\ncd".toList ++ ("\n".toList ++ (t ++ "ij\nk".toList)))) :=
  C68_surrounding_text exScop f [] ⟨[], [], [], []⟩ body ⟨2, 3, 3, 2, 0⟩ exFile rfl rfl 2 3 3 2 rfl rfl rfl rfl
    (by unfold IsPlace; decide) (by decide)

end Verif.Props.Annotate
