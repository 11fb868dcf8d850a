import Mathlib.Data.Rat.Floor
import Mathlib.Algebra.Order.Field.Power
import Mathlib.Data.Int.Log

/-!
# Floating point numbers, as far as `REAL` needs them

Specification side.  Fortran's `REAL(a)/REAL(b)`, printed for floors and ceilings of quotients
(source/pprint.c:149-156), is computed with numbers of a binary format: `p` binary digits, 24 for the
default kind on the usual machines.  The range of exponents is not limited here (quotients of integers
stay far inside the range of the formats in use).  Every rounding to nearest is allowed, whatever it does
with ties.
-/

namespace Verif.FReal

/-- Numbers with `p` binary digits. -/
def Float (p : Nat) (y : ℚ) : Prop := ∃ m e : ℤ, |m| ≤ 2 ^ p ∧ y = m * (2 : ℚ) ^ e

/-- Rounding to a nearest number of `p` digits. -/
def Nearest (p : Nat) (rnd : ℚ → ℚ) : Prop :=
  ∀ x, Float p (rnd x) ∧ ∀ y, Float p y → |x - rnd x| ≤ |x - y|

end Verif.FReal
