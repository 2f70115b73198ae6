import Verif.Model.Flatten
import Verif.Spec.Lie
import Verif.Spec.OCPNLP
import Mathlib.MeasureTheory.Integral.IntervalIntegral.Basic

/-! # Specification of continuous-time optimal control problems -/

namespace Verif.Flatten

open Verif.Sparse Verif.Lie Verif.MeshFn Verif.NLP Verif.QP Verif.QPSpec

variable {X U 𝔸 : Type*} {nx nu nq ncr nce : ℕ} [NormedRing 𝔸] [NormedAlgebra ℝ 𝔸]

/-- A trajectory `x`, `u` on `[0, tf]` with integrals `q` that satisfies the constraints of the problem in the documentation of `OCP`
(ocp.hpp:32-42), for a state space that is a Lie group. -/
structure Admissible (ocp : GOCP X U ℝ nx nq ncr nce) (mat : X → 𝔸) (hat : (Fin nx → ℝ) →ₗ[ℝ] 𝔸) (tf : ℝ) (x : ℝ → X) (u : ℝ → U)
    (q : Fin nq → ℝ) : Prop where
  dynamics : ∀ t ∈ Set.Icc 0 tf, HasVel mat hat x (ocp.f.val t (x t) (u t)) (Set.Icc 0 tf) t
  integrals : ∀ k, q k = ∫ t in (0 : ℝ)..tf, ocp.g.val t (x t) (u t) k
  running : ∀ t ∈ Set.Icc 0 tf, ∀ k, lower (ocp.crl k) (ocp.cr.val t (x t) (u t) k) ∧ upper (ocp.cru k) (ocp.cr.val t (x t) (u t) k)
  endpoint : ∀ k, lower (ocp.cel k) (ocp.ce.val tf (x 0) (x tf) q k) ∧ upper (ocp.ceu k) (ocp.ce.val tf (x 0) (x tf) q k)

/-- Its cost. -/
def cost (ocp : GOCP X U ℝ nx nq ncr nce) (tf : ℝ) (x : ℝ → X) (q : Fin nq → ℝ) : ℝ := ocp.theta.val tf (x 0) (x tf) q 0

/-- The point `(tf, x0, xf, q)`. -/
def ept (tf : ℝ) (x0 xf : Fin nx → ℝ) (q : Fin nq → ℝ) : EArg nx nq → ℝ
  | .tf => tf
  | .x0 k => x0 k
  | .xf k => xf k
  | .q k => q k

/-- The same for a problem on vector spaces. -/
structure FlatAdmissible (ocp : OCP ℝ nx nu nq ncr nce) (tf : ℝ) (x : ℝ → Fin nx → ℝ) (u : ℝ → Fin nu → ℝ) (q : Fin nq → ℝ) : Prop where
  dynamics : ∀ t ∈ Set.Icc 0 tf, HasDerivWithinAt x (ocp.f.val (pt t (x t) (u t))) (Set.Icc 0 tf) t
  integrals : ∀ k, q k = ∫ t in (0 : ℝ)..tf, ocp.g.val (pt t (x t) (u t)) k
  running : ∀ t ∈ Set.Icc 0 tf, ∀ k, lower (ocp.crl k) (ocp.cr.val (pt t (x t) (u t)) k) ∧ upper (ocp.cru k) (ocp.cr.val (pt t (x t) (u t)) k)
  endpoint : ∀ k, lower (ocp.cel k) (ocp.ce.val (ept tf (x 0) (x tf) q) k) ∧ upper (ocp.ceu k) (ocp.ce.val (ept tf (x 0) (x tf) q) k)

def flatCost (ocp : OCP ℝ nx nu nq ncr nce) (tf : ℝ) (x : ℝ → Fin nx → ℝ) (q : Fin nq → ℝ) : ℝ := ocp.theta.val (ept tf (x 0) (x tf) q) 0

/-- `diff::dr<1>` of a reference trajectory is its velocity. -/
def IsTraj (mat : X → 𝔸) (hat : (Fin nx → ℝ) →ₗ[ℝ] 𝔸) (xl : Traj X ℝ nx) (S : Set ℝ) : Prop := ∀ t ∈ S, HasVel mat hat xl.val (xl.d t) S t

/-- The error `e` stays where the exponential map is a local diffeomorphism (for rotations: angles other than multiples of `2π`). -/
def Regular (L : LieOps X ℝ nx) (e : ℝ → Fin nx → ℝ) (S : Set ℝ) : Prop := ∀ t ∈ S, IsUnit (L.drExp (e t)).det

end Verif.Flatten
