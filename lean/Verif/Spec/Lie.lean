import Verif.Model.Lie
import Mathlib.Analysis.Normed.Algebra.Exponential
import Mathlib.Analysis.Calculus.FDeriv.Basic
import Mathlib.Analysis.Calculus.Deriv.Basic
import Mathlib.LinearAlgebra.Matrix.NonsingularInverse
import Mathlib.Topology.Algebra.Module.FiniteDimension

/-!
# Matrix Lie groups

Assumptions on the smooth library: the group is a group of units of a finite-dimensional algebra (for instance of square matrices), the
tangent space is embedded by `hat`, and the functions are what their names say. `Verif/Props/LieExamples.lean` has instances.
-/

namespace Verif.Lie

open scoped Matrix

variable {X 𝔸 : Type*} {n : ℕ} [NormedRing 𝔸] [NormedAlgebra ℝ 𝔸]

/-- `mat` and `hat` represent the group and its tangent space. -/
structure IsLie (L : LieOps X ℝ n) (mat : X → 𝔸) (hat : (Fin n → ℝ) →ₗ[ℝ] 𝔸) : Prop where
  hat_inj : Function.Injective hat
  unit : ∀ x, IsUnit (mat x)
  rplus : ∀ x a, mat (L.rplus x a) = mat x * NormedSpace.exp (hat a)
  exp : ∀ a, mat (L.exp a) = NormedSpace.exp (hat a)
  /-- close elements differ by a small tangent vector -/
  chart : ∀ x, ∀ ε > 0, ∃ δ > 0, ∀ y, ‖mat y - mat x‖ < δ → ∃ a, ‖a‖ < ε ∧ y = L.rplus x a
  Ad : ∀ x v, hat (L.Ad x *ᵥ v) * mat x = mat x * hat v
  ad : ∀ a b, hat (L.ad a *ᵥ b) = hat a * hat b - hat b * hat a
  gen : ∀ a, L.ad a = ∑ i, a i • L.gen i
  /-- the right derivative of the exponential map -/
  drExp : ∀ a, ∃ D : (Fin n → ℝ) →L[ℝ] 𝔸, HasFDerivAt (fun a => NormedSpace.exp (hat a)) D a ∧
    ∀ b, D b = NormedSpace.exp (hat a) * hat (L.drExp a *ᵥ b)
  drExpinv : ∀ a, IsUnit (L.drExp a).det → L.drExpinv a = (L.drExp a)⁻¹
  d2rExp : ∀ a k r, ∃ D : (Fin n → ℝ) →L[ℝ] ℝ, HasFDerivAt (fun a => L.drExp a k r) D a ∧ ∀ c, D (Pi.single c 1) = L.d2rExp a k r c
  d2rExpinv : ∀ a, IsUnit (L.drExp a).det → ∀ k r, ∃ D : (Fin n → ℝ) →L[ℝ] ℝ, HasFDerivAt (fun a => L.drExpinv a k r) D a ∧
    ∀ c, D (Pi.single c 1) = L.d2rExpinv a k r c

/-- The map `x` into the group has the right derivative `D` at `z` (within `S`): `dx = x D`. -/
def HasRd {Z : Type*} [NormedAddCommGroup Z] [NormedSpace ℝ Z] (mat : X → 𝔸) (hat : (Fin n → ℝ) →ₗ[ℝ] 𝔸) (x : Z → X)
    (D : Z →L[ℝ] (Fin n → ℝ)) (S : Set Z) (z : Z) : Prop :=
  ∃ M : Z →L[ℝ] 𝔸, HasFDerivWithinAt (fun s => mat (x s)) M S z ∧ ∀ w, M w = mat (x z) * hat (D w)

/-- The curve `x` has velocity `v` (in right coordinates) at time `t`: `x' = x v`. -/
def HasVel (mat : X → 𝔸) (hat : (Fin n → ℝ) →ₗ[ℝ] 𝔸) (x : ℝ → X) (v : Fin n → ℝ) (S : Set ℝ) (t : ℝ) : Prop :=
  HasDerivWithinAt (fun s => mat (x s)) (mat (x t) * hat v) S t

end Verif.Lie
