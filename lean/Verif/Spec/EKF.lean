import Verif.Spec.Linear
import Mathlib.LinearAlgebra.Matrix.NonsingularInverse

/-! # Specification vocabulary for the filter: time grids, the batch least-squares estimate -/

namespace Verif.EKFSpec

open Matrix

variable {F : Type*} [Field F] [LinearOrder F] {n : ℕ}

/-- A list of (start time, length) steps is a gap-free grid from `a` to `b`. -/
def Grid : F → F → List (F × F) → Prop
  | a, b, [] => a = b
  | a, b, (t, dt) :: l => t = a ∧ Grid (a + dt) b l

/-- One linear measurement `y = H x + c + noise` with noise covariance `R`. -/
structure LinMeas (F : Type*) (n : ℕ) where
  m : ℕ
  H : Matrix (Fin m) (Fin n) F
  c : Fin m → F
  R : Matrix (Fin m) (Fin m) F
  y : Fin m → F

/-- Squared prior distance plus squared measurement residuals, each weighted by inverse covariance. -/
noncomputable def cost (P0 : Matrix (Fin n) (Fin n) F) (g0 : Fin n → F) (zs : List (LinMeas F n)) (w : Fin n → F) : F :=
  (w - g0) ⬝ᵥ P0⁻¹ *ᵥ (w - g0)
    + (zs.map (fun z => (z.y - z.c - z.H *ᵥ w) ⬝ᵥ z.R⁻¹ *ᵥ (z.y - z.c - z.H *ᵥ w))).sum

/-- Total information matrix of the measurements. -/
noncomputable def info (zs : List (LinMeas F n)) : Matrix (Fin n) (Fin n) F :=
  (zs.map (fun z => z.Hᵀ * z.R⁻¹ * z.H)).sum

/-- Total information vector of the measurements. -/
noncomputable def infoVec (zs : List (LinMeas F n)) : Fin n → F :=
  (zs.map (fun z => (z.Hᵀ * z.R⁻¹) *ᵥ (z.y - z.c))).sum

end Verif.EKFSpec
