import Verif.Spec.Flatten

/-! # What it means for trajectories to satisfy an optimal control problem at the collocation points -/

namespace Verif.Flatten

open Verif.Mesh Verif.Sparse Verif.Lie Verif.MeshFn Verif.NLP Verif.QP Verif.QPSpec

variable {X U 𝔸 : Type*} {nx nu nq ncr nce : ℕ} [NormedRing 𝔸] [NormedAlgebra ℝ 𝔸]

/-- The functions `x`, `u` on `[0, tf]` satisfy the problem in the documentation of `OCP` (ocp.hpp:32-42) at the collocation points
`tf τ_i`: the differential equation with the derivative within the mesh interval of the point (from both sides at an inner point, from the
right at the start of an interval), the running constraints; the integrals with the quadrature weights; the end constraints at `0` and `tf`. -/
structure Collocated (ocp : GOCP X U ℝ nx nq ncr nce) (mat : X → 𝔸) (hat : (Fin nx → ℝ) →ₗ[ℝ] 𝔸) (env : Mesh.Env ℝ) (m : Mesh ℝ) (tf : ℝ)
    (x : ℝ → X) (u : ℝ → U) (q : Fin nq → ℝ) : Prop where
  dynamics : ∀ i : Fin (nColloc m), ∀ p ∈ spans 1 m, p.1.tau0 ≤ tauAt env m i → tauAt env m i < p.2 →
    HasVel mat hat x (ocp.f.val (tf * tauAt env m i) (x (tf * tauAt env m i)) (u (tf * tauAt env m i)))
      (Set.Icc (tf * p.1.tau0) (tf * p.2)) (tf * tauAt env m i)
  integrals : ∀ k, q k = tf * ∑ i : Fin (nColloc m),
    wAt env m i * ocp.g.val (tf * tauAt env m i) (x (tf * tauAt env m i)) (u (tf * tauAt env m i)) k
  running : ∀ (i : Fin (nColloc m)) k,
    lower (ocp.crl k) (ocp.cr.val (tf * tauAt env m i) (x (tf * tauAt env m i)) (u (tf * tauAt env m i)) k) ∧
    upper (ocp.cru k) (ocp.cr.val (tf * tauAt env m i) (x (tf * tauAt env m i)) (u (tf * tauAt env m i)) k)
  endpoint : ∀ k, lower (ocp.cel k) (ocp.ce.val tf (x 0) (x tf) q k) ∧ upper (ocp.ceu k) (ocp.ce.val tf (x 0) (x tf) q k)

/-- The same for a problem on vector spaces. -/
structure FlatCollocated (ocp : OCP ℝ nx nu nq ncr nce) (env : Mesh.Env ℝ) (m : Mesh ℝ) (tf : ℝ)
    (x : ℝ → Fin nx → ℝ) (u : ℝ → Fin nu → ℝ) (q : Fin nq → ℝ) : Prop where
  dynamics : ∀ i : Fin (nColloc m), ∀ p ∈ spans 1 m, p.1.tau0 ≤ tauAt env m i → tauAt env m i < p.2 →
    HasDerivWithinAt x (ocp.f.val (pt (tf * tauAt env m i) (x (tf * tauAt env m i)) (u (tf * tauAt env m i))))
      (Set.Icc (tf * p.1.tau0) (tf * p.2)) (tf * tauAt env m i)
  integrals : ∀ k, q k = tf * ∑ i : Fin (nColloc m),
    wAt env m i * ocp.g.val (pt (tf * tauAt env m i) (x (tf * tauAt env m i)) (u (tf * tauAt env m i))) k
  running : ∀ (i : Fin (nColloc m)) k,
    lower (ocp.crl k) (ocp.cr.val (pt (tf * tauAt env m i) (x (tf * tauAt env m i)) (u (tf * tauAt env m i))) k) ∧
    upper (ocp.cru k) (ocp.cr.val (pt (tf * tauAt env m i) (x (tf * tauAt env m i)) (u (tf * tauAt env m i))) k)
  endpoint : ∀ k, lower (ocp.cel k) (ocp.ce.val (ept tf (x 0) (x tf) q) k) ∧ upper (ocp.ceu k) (ocp.ce.val (ept tf (x 0) (x tf) q) k)

end Verif.Flatten
