import Mathlib.Algebra.Order.Field.Basic
import Mathlib.Data.Fin.VecNotation
import Mathlib.Data.List.Basic

/-!
# What the filter of examples/asif_doubleintegrator.cpp should return, without its program

Position `x`, speed `v`, input `u`, slack `s`. The backup input brakes with 3 / 5; the look-ahead times are `k / 100`.
-/

namespace Verif.ASIFSpec

variable {F : Type*} [Field F] [LinearOrder F]

/-- The input `u` satisfies the conditions of the filter at `(x, v)` with slack `s`. -/
structure Allowed (x v u s : F) : Prop where
  lo : -1 ≤ u
  hi : u ≤ 1
  slack : 0 ≤ s
  pos : ∀ k : ℕ, k < 50 → x + v - 3 + (k : F) / 100 * (v + u) - 3 / 10 * ((k : F) / 100) * ((k : F) / 100 - 1 / 100) ≤ s
  vel : ∀ k : ℕ, k < 50 → u + v - 3 / 2 - 3 / 5 * ((k : F) / 100) ≤ s

/-- `u` is best: closest to the desired input 1, with price 100 for the square of the slack. -/
def Ideal (x v u : F) : Prop := ∃ s, Allowed x v u s ∧ ∀ w t, Allowed x v w t → (u - 1) ^ 2 + 100 * s ^ 2 ≤ (w - 1) ^ 2 + 100 * t ^ 2

/-- The states that follow the state `g` when the ideal input is held for 1 / 20 each time. -/
def IdealRun : (Fin 2 → F) → List (Fin 2 → F) → Prop
  | _, [] => True
  | g, g' :: l => (∃ u, Ideal (g 0) (g 1) u ∧ g' = ![g 0 + g 1 / 20 + u / 800, g 1 + u / 20]) ∧ IdealRun g' l

end Verif.ASIFSpec
