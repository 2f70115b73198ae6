import Mathlib.Algebra.Order.Field.Basic
import Mathlib.Algebra.Order.Ring.Abs

/-! # Specification of time arithmetic in floating point -/

namespace Verif.TimeSpec

variable {F : Type*} [Field F] [LinearOrder F]

/-- Rounding with relative errors of at most `u`. -/
def RelErr (fl : F → F) (u : F) : Prop := ∀ x, |fl x - x| ≤ u * |x|

/-- The count `k` is the count `n` or the one next to it on the side of zero. -/
def OneShort (n k : ℤ) : Prop := k = n ∨ (0 < n ∧ k = n - 1) ∨ (n < 0 ∧ k = n + 1)

end Verif.TimeSpec
