import Verif.Model.EKF
import Mathlib.LinearAlgebra.Matrix.NonsingularInverse

/-! # Information collected by measurements on a manifold (C144) -/

namespace Verif.EKFSpec

open Matrix EKF

universe v

variable {G : Type*} {F : Type v} [Field F] {n : ℕ}

/-- A measurement and the covariance of its noise, as passed to `update`. -/
structure Reading (G : Type*) (F : Type v) (n : ℕ) where
  z : Meas G F n
  R : Mat z.m z.m F

/-- Full matrix of which `R` holds the upper triangle. -/
def mirrored {m : ℕ} (R : Mat m m F) : Mat m m F := fun i j => if i ≤ j then R i j else R j i

/-- Sum of `Hᵀ R⁻¹ H`, each measurement linearised at its own point. -/
noncomputable def infoAt : List (Reading G F n) → List G → Matrix (Fin n) (Fin n) F
  | r :: rs, g :: gs => (r.z.jac g)ᵀ * (mirrored r.R)⁻¹ * r.z.jac g + infoAt rs gs
  | _, _ => 0

end Verif.EKFSpec
