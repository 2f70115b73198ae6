import Verif.Spec.EKFInfo

/-! # Normalised errors, innovations and noise (C153) -/

namespace Verif.EKFSpec

open Matrix EKF

universe v

variable {F : Type v} [Field F] {n : ℕ}

/-- The squared error of estimate `g` against the truth `x`, measured by the covariance `P`. -/
noncomputable def errorSq (x g : Fin n → F) (P : Matrix (Fin n) (Fin n) F) : F := (x - g) ⬝ᵥ P⁻¹ *ᵥ (x - g)

/-- The squared innovation of a reading, measured by its predicted covariance. -/
noncomputable def innovationSq (g : Fin n → F) (P : Matrix (Fin n) (Fin n) F) (r : Reading (Fin n → F) F n) : F :=
  r.z.yminus r.z.y (r.z.h g) ⬝ᵥ (r.z.jac g * P * (r.z.jac g)ᵀ + mirrored r.R)⁻¹ *ᵥ r.z.yminus r.z.y (r.z.h g)

/-- The squared deviation of a reading from what the linearised sensor reads at the truth, measured by the covariance of the sensor. -/
noncomputable def noiseSq (x g : Fin n → F) (r : Reading (Fin n → F) F n) : F :=
  (r.z.yminus r.z.y (r.z.h g) - r.z.jac g *ᵥ (x - g)) ⬝ᵥ (mirrored r.R)⁻¹ *ᵥ (r.z.yminus r.z.y (r.z.h g) - r.z.jac g *ᵥ (x - g))

end Verif.EKFSpec
