import Verif.Spec.EKF

/-! # Repeated readings of one sensor (C143) -/

namespace Verif.EKFSpec

open Matrix

variable {F : Type*} [Field F] {n m : ℕ}

/-- Readings `ys` of the same sensor `y = H x + c + noise`, noise covariance `R`. -/
def readings (H : Matrix (Fin m) (Fin n) F) (c : Fin m → F) (R : Matrix (Fin m) (Fin m) F) (ys : List (Fin m → F)) : List (LinMeas F n) :=
  ys.map (fun y => ⟨m, H, c, R, y⟩)

/-- Mean over the readings of the difference to the exact reading at the true state `x`. -/
def meanNoise (H : Matrix (Fin m) (Fin n) F) (c : Fin m → F) (x : Fin n → F) (ys : List (Fin m → F)) : Fin m → F :=
  ((ys.length : F))⁻¹ • (ys.map (fun y => y - (H *ᵥ x + c))).sum

end Verif.EKFSpec
