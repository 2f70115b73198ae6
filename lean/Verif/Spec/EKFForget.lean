import Verif.Spec.EKFInfo

/-! # Linear sensors (C155) -/

namespace Verif.EKFSpec

open Matrix EKF

universe v

variable {F : Type v} [Field F] {n : ℕ}

/-- The sensor is affine in a vector state: same derivative everywhere, and predicted readings differ by it. -/
def AffineSensor (r : Reading (Fin n → F) F n) : Prop := ∀ g g',
  r.z.jac g = r.z.jac g' ∧ r.z.yminus r.z.y (r.z.h g) - r.z.yminus r.z.y (r.z.h g') = r.z.jac g *ᵥ (g' - g)

end Verif.EKFSpec
