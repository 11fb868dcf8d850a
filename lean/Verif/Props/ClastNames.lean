import Verif.Lemmas.ClastNames
import Verif.Props.ClastExec

/-!
# C47: the variables of the generated code

The variables of generated code are the iterators (scattering dimensions and original iterators, `N` in all)
and the parameters of the program.  This is false of domains with a constraint over two existentials:
`C47_second_existential`.
-/

namespace Verif.Props.ClastNames
open Verif.Clast Verif.ClastGen Verif.ClastNames Verif.Props.ClastExec Verif.Props.Guards Verif.IntOps Verif.Bound

/-- One of the first `N` entries of the table of iterators. -/
def IsIter (nm : Names) (N : Nat) (s : String) : Prop := ∃ i < N, s = nm.at_ i

/-- One of the parameters. -/
def IsParam (nm : Names) (s : String) : Prop := ∃ j < nm.nPar, s = nm.param j

/-- Of its columns that are not parameters, a row only involves the first `N` and `col`. -/
def Named (cx : Ctx) (N col : Nat) (r : Row) : Prop :=
  ∀ k : Nat, k < r.coef.length - cx.nm.nPar → k ≠ col → r.at k ≠ 0 → k < N

/-- What the construction of the clast gets from isl: rounding a quotient and reducing an equality do not add
columns. -/
structure IslNames (cx : Ctx) (N : Nat) : Prop where
  floor : ∀ d e, (cx.floorAff d).2 = some e → e.num.length ≤ d.num.length
  reduce : ∀ eqs col u l b c b', Named cx N col u → cx.reduce eqs col u l b = some (c, b') →
    Named cx N col c

/-- The generated code only reads iterators and parameters of the program and only assigns to iterators, if no
constraint involves two existentials. -/
theorem C47_names_partial (cx : Ctx) (N : Nat) (hs : ∀ l, (cx.sort l).Perm l) (hg : ∀ l, (cx.gsort l).Perm l)
    (hi : IslNames cx N) (icmp : Int → Int → Int) (loops : List Loop) (hl : TreesIn cx.nm N 0 loops) (ss : List Stmt)
    (h : clastCreate cx icmp loops = some ss) :
    (∀ x ∈ readsS ss, IsIter cx.nm N x ∨ IsParam cx.nm x) ∧ ∀ x ∈ setsS ss, IsIter cx.nm N x :=
  insertLoops_S (P := fun x => IsIter cx.nm N x ∨ IsParam cx.nm x) (Q := fun x => IsIter cx.nm N x)
    ⟨⟨fun i hi => Or.inl ⟨i, hi, rfl⟩, fun i hi => ⟨i, hi, rfl⟩, fun i hi => Or.inr ⟨i, hi, rfl⟩⟩, hs, hg,
      hi.floor, fun eqs col u l b c b' hu hr => hi.reduce eqs col u l b c b' hu hr⟩
    loops 0 [] (fun _ => none) (fun i hi => absurd rfl hi) (fun e he => by simp at he) hl h

theorem exC_isl : IslNames exC 2 where
  floor := fun d e h => by
    have : exC.floorAff d = plainFloor d := rfl
    rw [this] at h
    unfold plainFloor at h
    dsimp only at h
    split at h
    · cases h
    · simp only [Option.some.injEq] at h
      subst h
      simp
  reduce := fun eqs col u l b c b' hu h => by
    have : exC.reduce eqs col u l b = some (u, b) := rfl
    rw [this] at h
    cases h
    exact hu

/-- The domains of the example of C25 are inside. -/
theorem exTree_in : TreesIn exC.nm 2 0 exTree := by
  have hp : exC.nm.nPar = 1 := rfl
  have h0 : ∀ n ≤ 2, DomIn exC.nm 2 ⟨n, [], []⟩ := fun n hn =>
    ⟨hn, fun r hr => by simp at hr, fun d hd => by simp at hd, fun r hr => by simp at hr⟩
  have h1 : DomIn exC.nm 2 exD1 := by
    refine ⟨by decide, by decide, by decide, ?_⟩
    intro r hr i j a b
    simp only [exD1, List.length_nil, Nat.add_zero] at a b
    omega
  have h2 : DomIn exC.nm 2 exD2 := by
    refine ⟨by decide, by decide, by decide, ?_⟩
    intro r hr i j a b
    simp only [exD2, List.length_nil, Nat.add_zero] at a b
    omega
  exact ⟨⟨h0 0 (by omega), by omega, fun h => absurd rfl h, ⟨h1, by omega, fun h => absurd rfl h,
    ⟨h2, by omega, fun h => absurd rfl h, ⟨h0 2 (by omega), by omega, fun h => absurd rfl h, trivial⟩, trivial⟩,
    trivial⟩, trivial⟩, trivial⟩

example (ss : List Stmt) (h : clastCreate exC gmpCmp exTree = some ss) :=
  C47_names_partial exC 2 (fun l => List.Perm.refl l) (fun l => List.Perm.refl l) exC_isl gmpCmp exTree exTree_in ss h

/-! ## What is missing is false -/

/-- `0 <= i <= N` and `N - floor(N/3)` is a multiple of 4, written with the existentials `floor(N/3)` and
`floor((N - floor(N/3))/4)`. -/
def twoDivs : Dom := ⟨1, [⟨[0, 0, 0, 1], 0, 3⟩, ⟨[0, -1, 0, 1], 0, 4⟩],
  [⟨true, [0, -1, -4, 1], 0⟩, ⟨false, [1, 0, 0, 0], 0⟩, ⟨false, [-1, 0, 0, 1], 0⟩]⟩

/-- A loop over it with one statement. -/
def twoTree : List Loop := [.mk ⟨0, [], []⟩ none false [] [.mk twoDivs none false [1] []]]

/-- A program with one iterator; whatever lies behind the end of its table of names is taken for the name of the
existential `floor(N/3)`. -/
theorem C47_second_existential : ∃ ss, clastCreate exC gmpCmp twoTree = some ss ∧ exC.nm.at_ 1 ∈ readsS ss ∧
    ¬ IsIter exC.nm 1 (exC.nm.at_ 1) ∧ ¬ IsParam exC.nm (exC.nm.at_ 1) := by
  refine ⟨[.guard [⟨.bin .mod (.red .sum [.term 3 (.name (exC.nm.at_ 1)), .term 1 (.name "N")]) 4, .cst 0, 0⟩]
    [.for_ "i" (some (.red .max [.cst 0])) (some (.red .min [.red .sum [.term 1 (.name "N")]])) 1
      [.user 1 []]]], rfl, by decide, ?_, ?_⟩
  · rintro ⟨i, hi, h⟩
    obtain rfl : i = 0 := by omega
    exact absurd h (by decide)
  · rintro ⟨j, hj, h⟩
    exact absurd h (by decide +revert)

end Verif.Props.ClastNames
