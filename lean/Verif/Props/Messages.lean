import Verif.Model.Messages
import Verif.Props.Options

/-!
# C90: the user is warned when input is suspicious or options are changed
-/

namespace Verif.Props.Messages
open Verif.Options Verif.Messages

/-- **C90.** Errors are always printed; warnings and information exactly without `-q`. -/
theorem C90_quiet {α : Type} (quiet : Option Int) (t : Ty) (msg : α) :
    (msg ∈ vmsg quiet t msg ↔ t = .error ∨ quiet = none ∨ quiet = some 0) := by
  cases quiet with
  | none => simp [vmsg]
  | some q =>
    simp only [vmsg]
    cases t <;> by_cases h : q = 0 <;> simp [h]

/-! ## Similar scatterings -/

theorem sameAs_iff {S : Type} (eq : S → S → Bool) (one : S) : ∀ ss : List S,
    sameAs eq one ss = true ↔ ∃ s ∈ ss, eq one s = true
  | [] => by simp [sameAs]
  | o :: ss => by
    simp only [sameAs, List.mem_cons, exists_eq_or_imp]
    rw [← sameAs_iff eq one ss]
    cases eq one o <;> simp

theorem lazySame_iff {S : Type} (eq : S → S → Bool) : ∀ ss : List S,
    lazySame eq ss = true ↔ ¬ ss.Pairwise fun a b => eq a b = false
  | [] => by simp [lazySame]
  | o :: ss => by
    simp only [lazySame, List.pairwise_cons]
    have h := sameAs_iff eq o ss
    by_cases hs : sameAs eq o ss = true
    · rw [if_pos hs]
      obtain ⟨s, h1, h2⟩ := h.1 hs
      simp only [true_iff]
      intro hc
      have := hc.1 s h1
      rw [h2] at this
      cases this
    · rw [if_neg hs, lazySame_iff eq ss]
      have : ∀ a ∈ ss, eq o a = false := fun a ha => by
        by_contra hc
        exact hs (h.2 ⟨a, ha, by simpa using hc⟩)
      tauto

/-- **C90, similar scatterings.** The warning is printed exactly when two statements have scatterings that isl
    finds equal without computing. -/
theorem C90_similar {S : Type} (quiet : Int) (eq : S → S → Bool) (ss : List S) :
    .similar ∈ readMsgs quiet eq ss ↔
      quiet = 0 ∧ ∃ i j : Nat, i < j ∧ ∃ a b, ss[i]? = some a ∧ ss[j]? = some b ∧ eq a b = true := by
  have e : lazySame eq ss = true ↔
      ∃ i j : Nat, i < j ∧ ∃ a b, ss[i]? = some a ∧ ss[j]? = some b ∧ eq a b = true := by
    rw [lazySame_iff, List.pairwise_iff_getElem]
    constructor
    · intro h
      push Not at h
      obtain ⟨i, j, hi, hj, hij, h⟩ := h
      exact ⟨i, j, hij, ss[i], ss[j], List.getElem?_eq_getElem hi, List.getElem?_eq_getElem hj, by simpa using h⟩
    · rintro ⟨i, j, hij, a, b, ha, hb, h⟩ hc
      obtain ⟨hi, rfl⟩ := List.getElem?_eq_some_iff.1 ha
      obtain ⟨hj, rfl⟩ := List.getElem?_eq_some_iff.1 hb
      rw [hc i j hi hj hij] at h
      cases h
  rw [← e]
  unfold readMsgs
  have q := C90_quiet (some quiet) .warning Msg.similar
  simp only [reduceCtorEq, false_or, Option.some.injEq] at q
  by_cases hl : lazySame eq ss = true
  · simp only [hl, if_true]
    rw [q]; simp
  · simp [hl]

/-- **C90 is false of scatterings that are equal but written differently**: isl's comparison does not compute, so
    two statements can get the same dates without a warning.  (`eq` is sound: what it finds equal is equal.) -/
theorem C90_not_warned : ∃ (rel : List (List Int × List Int) → Int → Int → Prop)
    (eq : List (List Int × List Int) → List (List Int × List Int) → Bool) (a b : List (List Int × List Int)),
    (∀ a b, eq a b = true → rel a = rel b) ∧ rel a = rel b ∧ readMsgs 0 eq [a, b] = [] := by
  refine ⟨fun cs x t => ∀ c ∈ cs, c.1.headD 0 * x = c.2.headD 0 * t, fun a b => decide (a = b),
    [([1], [1])], [([2], [2])], fun a b h => by rw [of_decide_eq_true h], ?_, by decide⟩
  funext x t
  simp

/-! ## Scatterings and statements -/

theorem scatterLoop_spec {D S : Type} (full : S → Bool) : ∀ (ds : List D) (ss : List S) (k : Nat),
    scatterLoop full ds ss k =
      (ds.drop ss.length, ss.drop ds.length, k + ((ss.take ds.length).filter fun s => !full s).length)
  | [], ss, k => by simp [scatterLoop]
  | d :: ds, [], k => by simp [scatterLoop]
  | d :: ds, s :: ss, k => by
    rw [scatterLoop, scatterLoop_spec full ds ss]
    cases h : full s <;> simp [h]
    omega

/-- **C90, scatterings and statements.** When there are scatterings, the warnings are printed exactly when their
    number is not the number of statements, and when some of those in use are not functions, with their number. -/
theorem C90_scatter {D S : Type} (full : S → Bool) (ds : List D) (ss : List S) (hs : ss ≠ []) :
    (.notEach ∈ scatterMsgs 0 full ds ss ↔ ds.length ≠ ss.length) ∧
    ∀ n, .notEnough n ∈ scatterMsgs 0 full ds ss ↔
      0 < n ∧ n = ((ss.take ds.length).filter fun s => !full s).length := by
  cases ss with
  | nil => exact absurd rfl hs
  | cons s ss =>
    simp only [scatterMsgs, scatterLoop_spec, Nat.zero_add]
    generalize ((s :: ss).take ds.length |>.filter fun s => !full s).length = c
    constructor
    · have : (!(ds.drop (s :: ss).length).isEmpty || !((s :: ss).drop ds.length).isEmpty) = true ↔
          ds.length ≠ (s :: ss).length := by
        simp only [Bool.or_eq_true, Bool.not_eq_true', List.isEmpty_eq_false_iff, ne_eq, List.drop_eq_nil_iff]
        omega
      rw [← this]
      split <;> split <;> simp_all [vmsg]
    · intro n
      split <;> split <;> simp_all [vmsg] <;> omega

/-- **C90, without `-q` only**: with `-q` none of the warnings is printed. -/
theorem C90_silent {D S : Type} (quiet : Int) (hq : quiet ≠ 0) (eq : S → S → Bool) (full : S → Bool)
    (ds : List D) (ss : List S) (override f l n : Int) :
    readMsgs quiet eq ss = [] ∧ scatterMsgs quiet full ds ss = [] ∧
      (fixLastMsgs quiet override f l n).2 = [] := by
  refine ⟨by simp [readMsgs, vmsg, hq], ?_, ?_⟩
  · unfold scatterMsgs
    split <;> simp [vmsg, hq]
  · unfold fixLastMsgs
    simp only [vmsg]
    split_ifs <;> simp_all

/-! ## Options -/

theorem fixLastMsgs_fst (quiet override f l n : Int) :
    (fixLastMsgs quiet override f l n).1 = fixLast override f l n := by
  unfold fixLastMsgs fixLast
  by_cases h : override ≠ 0
  · simp [h]
  · simp only [h, if_false]
    by_cases h1 : n > l ∧ l ≥ 0
    · simp only [h1]
      split_ifs <;> simp_all
    · simp only [h1, if_false]
      split_ifs <;> simp_all

/-- **C90, the option `-l`.** Without `-q`, exactly one warning is printed when CLooG changes `-l`, and none when it
    does not, unless `-override` is used: then `-l` is not changed, and there is a warning that the code may be
    wrong. -/
theorem C90_last (override f l : Int) (n : Nat) :
    (fixLastMsgs 0 override f l n).1 = fixLast override f l n ∧
    (override = 0 → (fixLastMsgs 0 override f l n).2.length = if fixLast override f l n = l then 0 else 1) ∧
    (override ≠ 0 → fixLast override f l n = l ∧ (fixLastMsgs 0 override f l n).2 = [.override]) := by
  refine ⟨fixLastMsgs_fst _ _ _ _ _, fun h => ?_, fun h => ?_⟩
  · rw [← fixLastMsgs_fst 0]
    unfold fixLastMsgs
    simp only [h, vmsg]
    by_cases h1 : (n : Int) > l ∧ l ≥ 0
    · rw [if_pos h1]
      have h2 : ¬ ((f > 1 ∨ f < 0) ∧ ((n : Int) > n ∨ (n : Int) < 0)) := by omega
      have h3 : (n : Int) ≠ l := by omega
      simp only [ne_eq, not_true_eq_false, if_false, if_neg h2, if_neg h3, false_and, List.length_singleton]
    · rw [if_neg h1]
      by_cases h2 : (f > 1 ∨ f < 0) ∧ (l > n ∨ l < 0)
      · have h3 : (n : Int) ≠ l := by omega
        simp [h2, h3]
      · simp [h2]
  · simp [fixLast, fixLastMsgs, h, vmsg]

/-- **C90 is false with `-q`**: CLooG changes `-l` without a message (with a scattering of two dimensions and
    `-l 1`). -/
theorem C90_changed_silently : fixLast 0 1 1 2 ≠ 1 ∧ fixLastMsgs 1 0 1 1 2 = (2, []) := by decide

/-- **C90, order of options.** Whether an unknown option is reported depends on its place: `-q` only counts for what
    comes after it, although the options read are the same. -/
theorem C90_quiet_order (w : World) (hw : w.readable "f".toList = true) :
    argMsgs w ["-x".toList, "-q".toList, "f".toList] {} = [.unknownOption "-x".toList] ∧
    argMsgs w ["-q".toList, "-x".toList, "f".toList] {} = [] ∧
    readArgs w ["-x".toList, "-q".toList, "f".toList] {} = readArgs w ["-q".toList, "-x".toList, "f".toList] {} := by
  have e1 : numKey "-x".toList = none := by decide
  have e2 : flagKeys "-x".toList = none := by decide
  have e3 : isInfo "-x".toList = false := by decide
  have e4 : numKey "-q".toList = none := by decide
  have e5 : flagKeys "-q".toList = some [(.quiet, 1)] := by decide
  have o1 : ¬ "-x".toList = "-openscop".toList := by decide
  have o2 : ¬ "-q".toList = "-openscop".toList := by decide
  have o3 : ¬ "-x".toList = "-o".toList := by decide
  have h1 : "-x".toList.head? = some '-' := by decide
  have h2 : "-q".toList.head? = some '-' := by decide
  have h3 : ¬ "f".toList.head? = some '-' := by decide
  have d : defaults .quiet = 0 := by decide
  refine ⟨?_, ?_, ?_⟩
  · simp only [argMsgs, h1, h2, h3, e1, e2, e3, e4, e5, o1, o2, o3, hw, if_true, if_false, or_true, d, vmsg]
    simp
  · simp only [argMsgs, h1, h2, h3, e1, e2, e3, e4, e5, o1, o2, o3, hw, if_true, if_false, or_true, d, vmsg, setAll]
    simp
  · simp only [readArgs, h1, h2, h3, e1, e2, e3, e4, e5, o1, o2, o3, hw, if_true, if_false, or_true]

/-! ## Unknown options -/

/-- The parts of a command line. -/
inductive Part
  | number (a v : Str)
  | flag (a : Str)
  | info (a : Str)
  | output (v : Str)
  | file (v : Str)
  | unknown (a : Str)

/-- The arguments of a command line. -/
def words : List Part → List Str
  | [] => []
  | .number a v :: us => a :: v :: words us
  | .flag a :: us => a :: words us
  | .info a :: us => a :: words us
  | .output v :: us => "-o".toList :: v :: words us
  | .file v :: us => v :: words us
  | .unknown a :: us => a :: words us

/-- The parts are what they are called. -/
def Part.Is (w : World) : Part → Prop
  | .number a _ => a.head? = some '-' ∧ (numKey a).isSome
  | .flag a => a.head? = some '-' ∧ numKey a = none ∧ a ≠ "-openscop".toList ∧ (flagKeys a).isSome
  | .info a => a.head? = some '-' ∧ numKey a = none ∧ a ≠ "-openscop".toList ∧ flagKeys a = none ∧ isInfo a = true
  | .output v => v = "stdout".toList ∨ w.writable v = true
  | .file v => v.head? ≠ some '-' ∧ (v = "stdin".toList ∨ w.readable v = true)
  | .unknown a => a.head? = some '-' ∧ numKey a = none ∧ a ≠ "-openscop".toList ∧ flagKeys a = none ∧
      isInfo a = false ∧ a ≠ "-o".toList

/-- A command line without errors: at most one input file (none if there is one already). -/
def Fine (w : World) : Bool → List Part → Prop
  | _, [] => True
  | b, .file v :: us => b = false ∧ Part.Is w (.file v) ∧ Fine w true us
  | b, u :: us => u.Is w ∧ Fine w b us

def isQuiet : Part → Bool
  | .flag a => a = "-q".toList || a = "--quiet".toList
  | _ => false

def unknownOf : Part → Option Str
  | .unknown a => some a
  | _ => none

theorem ite_some {p : Prop} [Decidable p] {x k : Key} {e : Option Key} (h : (if p then some x else e) = some k) :
    k = x ∨ e = some k := by
  split at h
  · exact Or.inl (Option.some.inj h).symm
  · exact Or.inr h

theorem numKey_quiet {a : Str} {k : Key} (h : numKey a = some k) : k ≠ .quiet := by
  unfold numKey at h
  iterate 13
    rcases ite_some h with hx | h
    · rw [hx]; decide
  cases h

theorem flagKeys_quiet {a : Str} {kvs : List (Key × Int)} (h : flagKeys a = some kvs) (o : Key → Int) :
    if a = "-q".toList ∨ a = "--quiet".toList then setAll kvs o .quiet = 1
    else setAll kvs o .quiet = o .quiet := by
  by_cases h1 : a = "-q".toList
  · subst h1
    have : flagKeys "-q".toList = some [(.quiet, 1)] := by decide
    rw [this] at h
    obtain rfl := Option.some.inj h
    simp [setAll]
  · by_cases h2 : a = "--quiet".toList
    · subst h2
      have : flagKeys "--quiet".toList = some [(.quiet, 1)] := by decide
      rw [this] at h
      obtain rfl := Option.some.inj h
      simp [setAll]
    · rw [if_neg (not_or.2 ⟨h1, h2⟩)]
      unfold flagKeys at h
      rw [if_neg h2, if_neg h1] at h
      repeat' split at h
      all_goals first
        | (obtain rfl := Option.some.inj h; simp [setAll])
        | cases h

/-- What the rounds of the loop do, part by part. -/
theorem argMsgs_part (w : World) (us : List Part) (st : St) : ∀ u : Part, u.Is w →
    (∀ v, u = .file v → st.input = none) → ∃ st' : St,
      argMsgs w (words (u :: us)) st =
        (match unknownOf u with
          | some a => vmsg (some (st.opts .quiet)) .warning (.unknownOption a)
          | none => []) ++ argMsgs w (words us) st' ∧
      st'.opts .quiet = (if isQuiet u then 1 else st.opts .quiet) ∧
      ((∀ v, u ≠ .file v) → st'.input = st.input)
  | .number a v, ⟨h1, h2⟩, _ => by
    obtain ⟨k, hk⟩ := Option.isSome_iff_exists.1 h2
    refine ⟨{ st with opts := Function.update st.opts k (toInt (strtol v)) }, ?_, ?_, fun _ => rfl⟩
    · rw [words, argMsgs.eq_def]
      dsimp only
      rw [if_pos h1]
      simp only [hk, unknownOf, List.nil_append]
    · have := numKey_quiet hk
      simp [isQuiet, Function.update_of_ne this.symm]
  | .flag a, ⟨h1, h2, h3, h4⟩, _ => by
    obtain ⟨kvs, hk⟩ := Option.isSome_iff_exists.1 h4
    refine ⟨{ st with opts := setAll kvs st.opts }, ?_, ?_, fun _ => rfl⟩
    · rw [words, argMsgs.eq_def]
      dsimp only
      rw [if_pos h1]
      simp only [h2, h3, hk, unknownOf, List.nil_append, if_false]
    · have := flagKeys_quiet hk st.opts
      by_cases hq : a = "-q".toList ∨ a = "--quiet".toList
      · rw [if_pos hq] at this
        have hb : isQuiet (.flag a) = true := by
          rw [isQuiet, Bool.or_eq_true, decide_eq_true_eq, decide_eq_true_eq]
          exact hq
        rw [hb]
        exact this
      · rw [if_neg hq] at this
        have hb : isQuiet (.flag a) = false := by
          rw [isQuiet, Bool.or_eq_false_iff, decide_eq_false_iff_not, decide_eq_false_iff_not]
          exact not_or.1 hq
        rw [hb]
        exact this
  | .info a, ⟨h1, h2, h3, h4, h5⟩, _ => by
    refine ⟨{ st with infos := true }, ?_, rfl, fun _ => rfl⟩
    rw [words, argMsgs.eq_def]
    dsimp only
    rw [if_pos h1]
    simp only [h2, h3, h4, h5, unknownOf, List.nil_append, if_false, if_true]
  | .output v, hv, _ => by
    have e1 : numKey "-o".toList = none := by decide
    have e2 : flagKeys "-o".toList = none := by decide
    have e3 : isInfo "-o".toList = false := by decide
    have e4 : ¬ "-o".toList = "-openscop".toList := by decide
    have e5 : "-o".toList.head? = some '-' := by decide
    by_cases ho : v = "stdout".toList
    · refine ⟨{ st with output := none }, ?_, rfl, fun _ => rfl⟩
      rw [words, argMsgs.eq_def]
      dsimp only
      rw [if_pos e5]
      simp only [e1, e2, e3, e4, ho, unknownOf, List.nil_append, if_false, if_true, Bool.false_eq_true]
    · have hw : w.writable v = true := hv.resolve_left ho
      refine ⟨{ st with output := some v }, ?_, rfl, fun _ => rfl⟩
      rw [words, argMsgs.eq_def]
      dsimp only
      rw [if_pos e5]
      simp only [e1, e2, e3, e4, ho, hw, unknownOf, List.nil_append, if_false, if_true, Bool.false_eq_true]
  | .file v, ⟨h1, h2⟩, hi => by
    refine ⟨{ st with input := some v }, ?_, rfl, fun h => absurd rfl (h v)⟩
    rw [words, argMsgs.eq_def]
    dsimp only
    rw [if_neg h1]
    simp only [hi v rfl, if_pos h2, unknownOf, List.nil_append]
  | .unknown a, ⟨h1, h2, h3, h4, h5, h6⟩, _ => by
    refine ⟨st, ?_, rfl, fun _ => rfl⟩
    rw [words, argMsgs.eq_def]
    dsimp only
    rw [if_pos h1]
    simp only [h2, h3, h4, h5, h6, unknownOf, if_false, Bool.false_eq_true]

theorem fine_cons {w : World} {b : Bool} {u : Part} {us : List Part} (h : Fine w b (u :: us)) :
    u.Is w ∧ (∀ v, u = .file v → b = false) ∧ ∃ b', Fine w b' us ∧ ((∀ v, u ≠ .file v) → b' = b) ∧
      ∀ v, u = .file v → b' = true := by
  cases u with
  | file v => exact ⟨h.2.1, fun _ _ => h.1, true, h.2.2, fun hn => absurd rfl (hn v), fun _ _ => rfl⟩
  | _ => exact ⟨h.1, fun _ hv => (nomatch hv), b, h.2, fun _ => rfl, fun _ hv => (nomatch hv)⟩

/-- One round keeps the command line fine. -/
theorem argMsgs_step (w : World) (u : Part) (us : List Part) (b : Bool) (st : St) (hf : Fine w b (u :: us))
    (hb : b = false → st.input = none) : ∃ (b' : Bool) (st' : St), Fine w b' us ∧
      (b' = false → st'.input = none) ∧ st'.opts .quiet = (if isQuiet u then 1 else st.opts .quiet) ∧
      argMsgs w (words (u :: us)) st =
        (match unknownOf u with
          | some a => vmsg (some (st.opts .quiet)) .warning (.unknownOption a)
          | none => []) ++ argMsgs w (words us) st' := by
  obtain ⟨h1, h2, b', h3, h4, h5⟩ := fine_cons hf
  obtain ⟨st', k1, k2, k3⟩ := argMsgs_part w us st u h1 fun v hv => hb (h2 v hv)
  refine ⟨b', st', h3, fun hb' => ?_, k2, k1⟩
  by_cases hv : ∀ v, u ≠ .file v
  · rw [k3 hv]; exact hb ((h4 hv).symm.trans hb')
  · push Not at hv
    obtain ⟨v, hv⟩ := hv
    rw [h5 v hv] at hb'
    cases hb'

theorem argMsgs_quiet (w : World) : ∀ (us : List Part) (b : Bool) (st : St), Fine w b us →
    (b = false → st.input = none) → st.opts .quiet ≠ 0 → argMsgs w (words us) st = []
  | [], _, _, _, _, _ => by rw [words, argMsgs]
  | u :: us, b, st, hf, hb, hq => by
    obtain ⟨b', st', h1, h2, h3, h4⟩ := argMsgs_step w u us b st hf hb
    rw [h4, argMsgs_quiet w us b' st' h1 h2 (by rw [h3]; split <;> simp [hq])]
    cases unknownOf u <;> simp [vmsg, hq]

theorem argMsgs_loud (w : World) : ∀ (us : List Part) (b : Bool) (st : St), Fine w b us →
    (b = false → st.input = none) → st.opts .quiet = 0 → argMsgs w (words us) st =
      ((us.takeWhile fun u => !isQuiet u).filterMap unknownOf).map .unknownOption
  | [], _, _, _, _, _ => by rw [words, argMsgs]; rfl
  | u :: us, b, st, hf, hb, hq => by
    obtain ⟨b', st', h1, h2, h3, h4⟩ := argMsgs_step w u us b st hf hb
    rw [h4]
    by_cases hu : isQuiet u = true
    · rw [if_pos hu] at h3
      rw [argMsgs_quiet w us b' st' h1 h2 (by rw [h3]; decide)]
      have : unknownOf u = none := by
        cases u <;> first | rfl | (simp only [isQuiet] at hu; cases hu)
      rw [List.takeWhile_cons_of_neg (by simp [hu]), this]
      rfl
    · rw [if_neg hu] at h3
      rw [argMsgs_loud w us b' st' h1 h2 (by rw [h3, hq]), List.takeWhile_cons_of_pos (by simpa using hu)]
      cases hn : unknownOf u <;> simp [vmsg, hq, hn]

/-- **C90, unknown options.** On a command line without errors the unknown options before the first `-q` or
    `--quiet` are reported, in order, and no others. -/
theorem C90_unknown (w : World) (us : List Part) (h : Fine w false us) : argMsgs w (words us) {} =
    ((us.takeWhile fun u => !isQuiet u).filterMap unknownOf).map .unknownOption :=
  argMsgs_loud w us false {} h (fun _ => rfl) (by decide)

-- `cloog -x -l 3 f -q -y`: only `-x` is reported
example (w : World) (hw : w.readable "f".toList = true) :
    argMsgs w ["-x".toList, "-l".toList, "3".toList, "f".toList, "-q".toList, "-y".toList] {} =
      [.unknownOption "-x".toList] := by
  refine (C90_unknown w [.unknown "-x".toList, .number "-l".toList "3".toList, .file "f".toList,
    .flag "-q".toList, .unknown "-y".toList] ⟨⟨?_, ?_, ?_, ?_, ?_, ?_⟩, ⟨?_, ?_⟩, rfl, ⟨?_, Or.inr hw⟩,
    ⟨?_, ?_, ?_, ?_⟩, ⟨?_, ?_, ?_, ?_, ?_, ?_⟩, trivial⟩).trans ?_ <;> decide

/-! ## Examples -/

example : readMsgs 0 (fun a b : Nat => decide (a = b)) [1, 2, 3, 2] = [.similar] := by decide
example : readMsgs 0 (fun a b : Nat => decide (a = b)) [1, 2, 3] = [] := by decide
example : scatterMsgs 0 (fun n : Nat => decide (n = 1)) [0, 0, 0] [1, 2] = [.notEach, .notEnough 1] := by decide
example : fixLastMsgs 0 0 1 1 2 = (2, [.lastRaised]) := by decide
example : fixLastMsgs 0 0 3 (-1) 2 = (2, [.lastReset]) := by decide
example : fixLastMsgs 0 1 3 (-1) 2 = (-1, [.override]) := by decide

end Verif.Props.Messages
