import Verif.Model.SE2NLP
import Verif.Spec.SE2QP
import Verif.Spec.Collocated

/-! # Specification: the nonlinear program of the problem on SE(2) -/

namespace Verif.SE2

open Verif.Mesh Verif.MeshFn Verif.NLP Verif.Lie Verif.Flatten

open scoped Matrix

variable {X 𝔸 : Type*} [NormedRing 𝔸] [NormedAlgebra ℝ 𝔸]

/-- `idX` is the state at the pose one without velocity. -/
def IsOne (P : PoseOps X ℝ) (idX : X) : Prop := ∀ v, P.make 0 v = P.rplus idX ![0, 0, 0, v 0, v 1]

/-- A vehicle that starts at the pose one with speed 1 and does not turn then, moves over five seconds forward with its speed and turns with its rate of turn
(at the collocation points), and accelerates by at most one in either. -/
structure Drives (P : PoseOps X ℝ) (mat : X → 𝔸) (hat : (Fin 5 → ℝ) →ₗ[ℝ] 𝔸) (env : Mesh.Env ℝ) (m : Mesh ℝ) (x : ℝ → X) (u : ℝ → Fin 2 → ℝ) : Prop where
  moves : ∀ i : Fin (nColloc m), ∀ p ∈ spans 1 m, p.1.tau0 ≤ tauAt env m i → tauAt env m i < p.2 →
    HasVel mat hat x ![P.vel (x (5 * tauAt env m i)) 0, 0, P.vel (x (5 * tauAt env m i)) 1, u (5 * tauAt env m i) 0, u (5 * tauAt env m i) 1]
      (Set.Icc (5 * p.1.tau0) (5 * p.2)) (5 * tauAt env m i)
  limits : ∀ (i : Fin (nColloc m)) k, |u (5 * tauAt env m i) k| ≤ 1
  start : P.log (x 0) = ![0, 0, 0, 1, 0]

/-- Five seconds, and half the integral over them, by quadrature, of the squared distance from the desired motion and the squared accelerations. -/
noncomputable def expense (P : PoseOps X ℝ) (env : Mesh.Env ℝ) (m : Mesh ℝ) (x : ℝ → X) (u : ℝ → Fin 2 → ℝ) : ℝ :=
  5 + 5 / 2 * ∑ i : Fin (nColloc m), wAt env m i *
    (∑ k, P.rminus (x (5 * tauAt env m i)) (xdes P (5 * tauAt env m i)) k ^ 2 + ∑ k, u (5 * tauAt env m i) k ^ 2)

/-- The vehicle drives straight on, without acceleration. -/
noncomputable def straightX (P : PoseOps X ℝ) (idX : X) (t : ℝ) : X := P.rplus idX ![t, 0, 0, 1, 0]

end Verif.SE2
