import Mathlib.LinearAlgebra.Matrix.Symmetric
import Mathlib.Algebra.Order.Field.Basic
import Mathlib.Data.Matrix.Mul

/-! # Definiteness of matrices over an ordered field -/

namespace Verif.Lin

open Matrix

variable {F : Type*} [Field F] [LinearOrder F]

/-- Symmetric positive semidefinite. -/
def PSD {ι : Type*} [Fintype ι] (M : Matrix ι ι F) : Prop := M.IsSymm ∧ ∀ v : ι → F, 0 ≤ v ⬝ᵥ M *ᵥ v

/-- Symmetric positive definite. -/
def PD {ι : Type*} [Fintype ι] (M : Matrix ι ι F) : Prop := M.IsSymm ∧ ∀ v : ι → F, v ≠ 0 → 0 < v ⬝ᵥ M *ᵥ v

end Verif.Lin
