import Verif.Lemmas.Gen

/-!
# C22: detected strides

`ResidueOK` is what is assumed about `isl_set_dim_residue_class_val`.
-/

namespace Verif.Props.Stride

open Verif.Loop Verif.Gen

variable {D S C Par : Type}

/-- What is assumed about `isl_set_dim_residue_class_val`: for the modulus `m` and the residue `r`
returned for an iterator, all values of that iterator are `r` plus a multiple of `m`; the residue is
reduced unless the modulus is zero (a fixed value). -/
def ResidueOK (mem : D → Par × Pt → Prop) (res : D → Nat → Int × Int) : Prop :=
  ∀ d L, 0 ≤ (res d L).1 ∧ (0 < (res d L).1 → 0 ≤ (res d L).2 ∧ (res d L).2 < (res d L).1) ∧
    ∀ px, mem d px → (res d L).1 ∣ px.2 (L - 1) - (res d L).2

/-- The values `V` may have potential stride `m` with offset `c`. -/
structure Pot (m c : Int) (V : Int → Prop) : Prop where
  nonneg : 0 ≤ m
  range : 0 < m → 0 ≤ c ∧ c < m
  dvd : ∀ v, V v → m ∣ v + c

theorem residueStride_pot {m r : Int} {V : Int → Prop} (h0 : 0 ≤ m)
    (hr : 0 < m → 0 ≤ r ∧ r < m) (hv : ∀ v, V v → m ∣ v - r) :
    Pot (residueStride m r).1 (residueStride m r).2 V := by
  unfold residueStride
  dsimp only
  by_cases h : r = 0
  · subst h
    rw [if_neg (by simp)]
    exact ⟨h0, fun h => ⟨le_refl _, h⟩, fun v hv' => by simpa using hv v hv'⟩
  · rw [if_pos h]
    refine ⟨h0, fun h' => ?_, fun v hv' => ?_⟩
    · have := hr h'; omega
    · have e : v + (m - r) = (v - r) + m := by omega
      rw [e]
      exact dvd_add (hv v hv') (dvd_refl m)

/-- Invariant of the search. -/
def Inv (s : StrideSearch) (V : Int → Prop) : Prop :=
  s.stride = 1 ∨ (s.offset = s.refOffset ∧ Pot s.stride s.offset V)

theorem fmod_dvd {a g : Int} : g ∣ a - a.fmod g := by
  have := Int.fmod_add_mul_fdiv a g
  exact ⟨a.fdiv g, by omega⟩

theorem strideStep_inv {m c : Int} {s : StrideSearch} {V W : Int → Prop}
    (hs : s.first = true ∧ (∀ v, ¬ V v) ∨ s.first = false ∧ Inv s V) (hp : Pot m c W) :
    (strideStep m c s).first = false ∧ Inv (strideStep m c s) (fun v => V v ∨ W v) := by
  unfold strideStep
  by_cases h1 : s.first = true ∨ s.stride ≠ 1
  · rw [if_pos h1]
    by_cases h2 : m ≠ 1 ∧ s.first = false
    · rw [if_pos h2]
      dsimp only
      refine ⟨rfl, ?_⟩
      have hI : Inv s V := by
        rcases hs with ⟨h, _⟩ | ⟨_, h⟩
        · rw [h2.2] at h; exact absurd h (by simp)
        · exact h
      have hs1 : s.stride ≠ 1 := by
        rcases h1 with h | h
        · rw [h2.2] at h; exact absurd h (by simp)
        · exact h
      rcases hI with h | ⟨e, P⟩
      · exact absurd h hs1
      generalize hoff : (if gcd m s.stride ≠ 0 then c.fmod (gcd m s.stride) else c) = off
      generalize href : (if gcd m s.stride ≠ 0 then s.refOffset.fmod (gcd m s.stride)
        else s.refOffset) = ref
      unfold Inv
      dsimp only
      by_cases he : off = ref
      · right
        rw [if_neg (not_not.2 he)]
        refine ⟨he, ?_⟩
        have gm : gcd m s.stride ∣ m := Int.gcd_dvd_left ..
        have gs : gcd m s.stride ∣ s.stride := Int.gcd_dvd_right ..
        have g0 : 0 ≤ gcd m s.stride := by unfold gcd; omega
        refine ⟨g0, fun hg => ?_, ?_⟩
        · rw [← hoff, if_pos (by omega)]
          exact ⟨Int.fmod_nonneg_of_pos _ hg, Int.fmod_lt_of_pos _ hg⟩
        · have key : ∀ (v a off : Int), gcd m s.stride ∣ v + a →
              (if gcd m s.stride ≠ 0 then a.fmod (gcd m s.stride) else a) = off →
              gcd m s.stride ∣ v + off := by
            intro v a off hd ho
            subst ho
            by_cases hz : gcd m s.stride = 0
            · rw [if_neg (not_not.2 hz)]; exact hd
            · rw [if_pos hz]
              have := dvd_sub hd (fmod_dvd (a := a) (g := gcd m s.stride))
              have e' : v + a - (a - a.fmod (gcd m s.stride)) = v + a.fmod (gcd m s.stride) := by omega
              rwa [e'] at this
          rintro v (hv | hv)
          · rw [he]
            refine key v s.refOffset _ ?_ href
            rw [← e]
            exact gs.trans (P.dvd v hv)
          · exact key v c _ (gm.trans (hp.dvd v hv)) hoff
      · left
        rw [if_pos he]
    · rw [if_neg h2]
      refine ⟨rfl, ?_⟩
      by_cases hm : m = 1
      · exact Or.inl hm
      · right
        refine ⟨rfl, hp.nonneg, hp.range, ?_⟩
        have hf : s.first = true := by
          by_contra hf
          exact h2 ⟨hm, by simpa using hf⟩
        rintro v (hv | hv)
        · rcases hs with ⟨_, h⟩ | ⟨h, _⟩
          · exact absurd hv (h v)
          · rw [hf] at h; exact absurd h (by simp)
        · exact hp.dvd v hv
  · rw [if_neg h1]
    push Not at h1
    exact ⟨by simpa using h1.1, Or.inl h1.2⟩

theorem foldl_inv : ∀ (l : List ((Int × Int) × (Int → Prop))) (s : StrideSearch) (V : Int → Prop),
    (∀ a ∈ l, Pot a.1.1 a.1.2 a.2) → s.first = false → Inv s V →
    Inv ((l.map Prod.fst).foldl (fun s po => strideStep po.1 po.2 s) s)
      (fun v => V v ∨ ∃ a ∈ l, a.2 v)
  | [], s, V, _, _, h => by simpa using h
  | a :: l, s, V, hl, hf, h => by
    obtain ⟨h1, h2⟩ := strideStep_inv (Or.inr ⟨hf, h⟩) (hl a (by simp))
    have := foldl_inv l _ _ (fun a ha => hl a (by simp [ha])) h1 h2
    simpa [or_assoc] using this

/-- The search for a common stride, for inner loops whose values have the given potential strides and
offsets. -/
theorem strideSearch_spec (l : List ((Int × Int) × (Int → Prop)))
    (hl : ∀ a ∈ l, Pot a.1.1 a.1.2 a.2) {s off : Int}
    (h : strideSearch (l.map Prod.fst) = some (s, off)) :
    1 < s ∧ 0 ≤ off ∧ off < s ∧ ∀ a ∈ l, ∀ v, a.2 v → v % s = off := by
  have key : ∀ t : StrideSearch, Inv t (fun v => ∃ a ∈ l, a.2 v) →
      (let st := if t.stride = 0 then 1 else t.stride
       if st ≠ 1 then some (st, if t.offset ≠ 0 then st - t.offset else t.offset) else none) =
        some (s, off) →
      1 < s ∧ 0 ≤ off ∧ off < s ∧ ∀ a ∈ l, ∀ v, a.2 v → v % s = off := by
    intro t hI ht
    dsimp only at ht
    by_cases h0 : t.stride = 0
    · rw [if_pos h0, if_neg (by simp)] at ht
      exact absurd ht (by simp)
    rw [if_neg h0] at ht
    by_cases h1 : t.stride = 1
    · rw [if_neg (by simpa using h1)] at ht
      exact absurd ht (by simp)
    rw [if_pos h1] at ht
    simp only [Option.some.injEq, Prod.mk.injEq] at ht
    obtain ⟨rfl, rfl⟩ := ht
    rcases hI with h | ⟨_, P⟩
    · exact absurd h h1
    have hn := P.nonneg
    have hr := P.range (by omega)
    have hmod : ∀ v w : Int, t.stride ∣ v - w → 0 ≤ w → w < t.stride → v % t.stride = w := by
      intro v w hd h0 h1
      have := (Int.emod_eq_emod_iff_emod_sub_eq_zero (m := v) (n := t.stride) (k := w)).2
        (Int.emod_eq_zero_of_dvd hd)
      rw [this, Int.emod_eq_of_lt h0 h1]
    refine ⟨by omega, ?_⟩
    by_cases hz : t.offset = 0
    · rw [if_neg (by simpa using hz)]
      refine ⟨by omega, by omega, fun a ha v hv => hmod v _ ?_ (by omega) (by omega)⟩
      have := P.dvd v ⟨a, ha, hv⟩
      rw [hz] at this ⊢
      simpa using this
    · rw [if_pos hz]
      refine ⟨by omega, by omega, fun a ha v hv => hmod v _ ?_ (by omega) (by omega)⟩
      have := dvd_sub (P.dvd v ⟨a, ha, hv⟩) (dvd_refl t.stride)
      have e : v + t.offset - t.stride = v - (t.stride - t.offset) := by omega
      rwa [e] at this
  cases l with
  | nil => simp [strideSearch] at h
  | cons a l =>
    obtain ⟨h1, h2⟩ := strideStep_inv (s := ⟨1, 0, 0, true⟩) (V := fun _ => False)
      (Or.inl ⟨rfl, by simp⟩) (hl a (by simp))
    have := foldl_inv l _ _ (fun a ha => hl a (by simp [ha])) h1 h2
    refine key _ (by simpa using this) ?_
    simpa [strideSearch] using h

variable {o : DomOps D S C} {mem : D → Par × Pt → Prop}

/-- **C22** (constant offsets).  When no stride with a variable offset is found, `cloog_loop_stride`
leaves the loop as it is, or attaches a stride `s > 1` with an offset `0 ≤ off < s` such that every
value of the iterator in every inner domain is congruent to `off` modulo `s`. -/
theorem C22_stride {res : D → Nat → Int × Int} (hres : ResidueOK mem res)
    (hst : ∀ d L, o.stride d L = residueStride (res d L).1 (res d L).2)
    (L : Nat) (l : Loop D S)
    (hno : o.listStride (l.inner.map Loop.dom).reverse L = none) :
    loopStride o L l = l ∨
    ∃ s off, loopStride o L l =
        .mk (o.strideLowerBound l.dom L (o.mkStride s off)) l.otl (some (o.mkStride s off)) l.block
          l.inner ∧
      1 < s ∧ 0 ≤ off ∧ off < s ∧
      ∀ i ∈ l.inner, ∀ px, mem i.dom px → px.2 (L - 1) % s = off := by
  obtain ⟨d, otl, st, b, inner⟩ := l
  simp only [Loop.inner_mk, Loop.dom_mk, Loop.otl_mk, Loop.block_mk] at *
  by_cases hc : o.canStride d L = false
  · left
    simp [loopStride, hc]
  · cases hs : strideSearch (inner.map (fun l => o.stride l.dom L)) with
    | none =>
      left
      simp [loopStride, hc, hno, hs]
    | some so =>
      obtain ⟨s, off⟩ := so
      right
      refine ⟨s, off, by simp [loopStride, hc, hno, hs], ?_⟩
      have := strideSearch_spec (inner.map (fun i : Loop D S => (o.stride i.dom L,
        fun v : Int => ∃ px, mem i.dom px ∧ px.2 (L - 1) = v))) ?_ (s := s) (off := off) ?_
      · refine ⟨this.1, this.2.1, this.2.2.1, fun i hi px hpx => ?_⟩
        exact this.2.2.2 _ (List.mem_map_of_mem hi) _ ⟨px, hpx, rfl⟩
      · intro a ha
        obtain ⟨i, _, rfl⟩ := List.mem_map.1 ha
        dsimp only
        rw [hst]
        obtain ⟨h1, h2, h3⟩ := hres i.dom L
        refine residueStride_pot h1 h2 ?_
        rintro v ⟨px, hpx, rfl⟩
        exact h3 px hpx
      · rw [List.map_map]
        exact hs

/-- **C22**, consequence for execution.  If the lower bound is only moved past values that the stride
excludes (C07) and strides with a variable offset are right, the loop with the stride executes its
inner loops at the same points with something to execute. -/
theorem C22_executes {res : D → Nat → Int × Int} (hres : ResidueOK mem res)
    (hst : ∀ d L, o.stride d L = residueStride (res d L).1 (res d L).2)
    {ok : Nat → S → Par × Pt → Prop} {L : Nat} (h0 : 0 < L)
    (hmk : ∀ s off px, ok L (o.mkStride s off) px ↔ px.2 (L - 1) % s = off)
    (hlist : ∀ ds s, o.listStride ds L = some s → ∀ d ∈ ds, ∀ px, mem d px → ok L s px)
    (hlow : ∀ d s px, o.dim (o.strideLowerBound d L s) = o.dim d ∧
      (mem (o.strideLowerBound d L s) px → mem d px) ∧
      (mem d px → ok L s px → mem (o.strideLowerBound d L s) px))
    {l : Loop D S} (hs : l.stride = none) (hd : o.dim l.dom = L) (p : Par) (x y : Pt) :
    (Visits (sem o mem ok p) L x l.dom l.stride y ∧ ∃ i ∈ l.inner, mem i.dom (p, y)) ↔
    (Visits (sem o mem ok p) L x (loopStride o L l).dom (loopStride o L l).stride y ∧
      ∃ i ∈ l.inner, mem i.dom (p, y)) := by
  obtain ⟨d, otl, st, b, inner⟩ := l
  simp only [Loop.inner_mk, Loop.dom_mk, Loop.stride_mk] at *
  subst hs
  have main : ∀ s, (∀ i ∈ inner, ∀ px, mem i.dom px → ok L s px) →
      ((Visits (sem o mem ok p) L x d none y ∧ ∃ i ∈ inner, mem i.dom (p, y)) ↔
      (Visits (sem o mem ok p) L x (o.strideLowerBound d L s) (some s) y ∧
        ∃ i ∈ inner, mem i.dom (p, y))) := by
    intro s hs
    obtain ⟨e1, e2, e3⟩ := hlow d s (p, y)
    have c1 : 0 < L ∧ L ≤ (sem o mem ok p).dim d := ⟨h0, Nat.le_of_eq hd.symm⟩
    have c2 : 0 < L ∧ L ≤ (sem o mem ok p).dim (o.strideLowerBound d L s) :=
      ⟨h0, Nat.le_of_eq (e1.trans hd).symm⟩
    unfold Visits
    rw [if_pos c1, if_pos c2]
    constructor
    · rintro ⟨⟨h1, h2, _⟩, i, hi, hm⟩
      have hok := hs i hi (p, y) hm
      refine ⟨⟨h1, e3 h2 hok, ?_⟩, i, hi, hm⟩
      rintro s' h
      obtain rfl := Option.some.inj h
      exact hok
    · rintro ⟨⟨h1, h2, _⟩, hi⟩
      exact ⟨⟨h1, e2 h2, by simp⟩, hi⟩
  by_cases hc : o.canStride d L = false
  · have : loopStride o L (Loop.mk d otl none b inner) = Loop.mk d otl none b inner := by
      simp [loopStride, hc]
    rw [this]
    rfl
  cases hl : o.listStride (inner.map Loop.dom).reverse L with
  | some s =>
    have : loopStride o L (Loop.mk d otl none b inner) =
        Loop.mk (o.strideLowerBound d L s) otl (some s) b inner := by
      simp [loopStride, hc, hl]
    rw [this]
    exact main s (fun i hi px hpx => hlist _ _ hl i.dom (by simpa using ⟨i, hi, rfl⟩) px hpx)
  | none =>
    rcases C22_stride (mem := mem) hres hst L (.mk d otl none b inner) hl with h | ⟨s, off, h, _, _, _, hv⟩
    · rw [h]
      rfl
    · rw [h]
      exact main _ (fun i hi px hpx => (hmk _ _ _).2 (hv i hi px hpx))

/-! ## Example -/

/-- The residue of a residue class. -/
def toyRes (d : Int × Int) (L : Nat) : Int × Int := if 0 < d.1 ∧ L = 1 then (d.1, d.2 % d.1) else (1, 0)

/-- Residue classes as domains: `(m, r)` has the points whose first coordinate is `r` plus a multiple
of `m`.  The operations that play no role here do nothing. -/
def toy : DomOps (Int × Int) (Int × Int) Unit where
  dim _ := 1
  isConvex _ := true
  isEmpty _ := false
  neverIntegral _ := false
  simplifyUnion d := d
  cutFirst d := (d, d)
  inter a _ := a
  union a _ := a
  diff a _ := a
  empty d := d
  lazyEqual _ _ := false
  lazyDisjoint _ _ := false
  convex d := d
  simpleConvex d := d
  isBounded _ _ := true
  boundSplitter d _ := d
  extend d _ := d
  project d _ := d
  gist a _ := a
  sort _ _ := none
  follows _ _ _ := 0
  lazyIsConstant _ _ := none
  canStride _ _ := true
  listStride _ _ := none
  stride d L := residueStride (toyRes d L).1 (toyRes d L).2
  mkStride s off := (s, off)
  strideLowerBound d _ _ := d
  addStride d _ := d
  isOtl _ _ := false
  canUnroll _ _ := none
  fixedOffset d _ _ _ := d
  icmp a b := a - b

def toyMem (d : Int × Int) (px : Unit × Pt) : Prop := 0 < d.1 ∧ d.1 ∣ px.2 0 - d.2

/-- Inner loops with `i ≡ 1 (mod 6)` and `i ≡ 13 (mod 9)`: the stride 3 with offset 1 is attached. -/
def toyLoop : Loop (Int × Int) (Int × Int) :=
  .mk (1, 0) false none none [.mk (6, 1) false none none [], .mk (9, 13) false none none []]

example : ResidueOK toyMem toyRes ∧ (loopStride toy 1 toyLoop).stride = some (3, 1) ∧
    ∀ i ∈ toyLoop.inner, ∀ px, toyMem i.dom px → px.2 0 % 3 = 1 := by
  have hres : ResidueOK toyMem toyRes := by
    intro d L
    unfold toyRes
    split
    · rename_i h
      obtain ⟨h, rfl⟩ := h
      refine ⟨by dsimp only; omega, fun _ => ⟨Int.emod_nonneg _ (by omega), Int.emod_lt_of_pos _ h⟩, ?_⟩
      intro px hpx
      have := dvd_add hpx.2 (Int.dvd_self_sub_of_emod_eq (rfl : d.2 % d.1 = d.2 % d.1))
      simpa using this
    · exact ⟨by simp, fun _ => ⟨by simp, by simp⟩, fun px _ => by simp⟩
  have hst : (loopStride toy 1 toyLoop).stride = some (3, 1) := by decide
  refine ⟨hres, hst, ?_⟩
  rcases C22_stride (o := toy) hres (fun _ _ => rfl) 1 toyLoop rfl with h | ⟨s, off, h, _, _, _, hv⟩
  · rw [h] at hst
    exact absurd hst (by decide)
  · rw [h] at hst
    have h' : some ((s, off) : Int × Int) = some (3, 1) := hst
    simp only [Option.some.injEq, Prod.mk.injEq] at h'
    obtain ⟨rfl, rfl⟩ := h'
    exact hv

/-- Offsets that do not agree modulo the common divisor give no stride; a fixed value (modulus zero)
does. -/
example : strideSearch [residueStride 6 1, residueStride 6 4] = none ∧
    strideSearch [residueStride 0 4, residueStride 3 1] = some (3, 1) := by decide

end Verif.Props.Stride
