import Verif.Model.SE2QP
import Verif.Spec.SE2Ocp
import Verif.Spec.OCPQP

/-! # Specification: the quadratic program of the problem on SE(2) -/

namespace Verif.SE2

open Verif.Mesh Verif.MeshFn Verif.NLP Verif.Lie Verif.OQP

open scoped Matrix

/-- The poses are those of the plane: the bracket of `se(2)` on the first three coordinates, none on the velocities; the logarithm of a state with pose one
holds the velocities; a state does not differ from itself. -/
structure IsPlane {X : Type*} (P : PoseOps X ℝ) : Prop where
  ad : ∀ a b, P.ad a *ᵥ b = ![a 1 * b 2 - a 2 * b 1, a 2 * b 0 - a 0 * b 2, 0, 0, 0]
  log : ∀ v, P.log (P.make 0 v) = ![0, 0, 0, v 0, v 1]
  self : ∀ x, P.rminus x x = 0

/-- The error of a vehicle relative to one that moves with speed 1 and rate of turn 1/2 (forward, left, angle, speed, rate of turn), to first order, under
the accelerations `v`. -/
noncomputable def errRate (e : Fin 5 → ℝ) (v : Fin 2 → ℝ) : Fin 5 → ℝ := ![e 1 / 2 + e 3, -(e 0 / 2) + e 2, e 4, v 0, v 1]

variable {N : ℕ}

/-- The state of the deviation `z` at node `i`, and its input. -/
def stateAt (z : QVar N 5 2 → ℝ) (i : Fin (N + 1)) : Fin 5 → ℝ := fun k => z (.x i k)

def inputAt (z : QVar N 5 2 → ℝ) (i : Fin N) : Fin 2 → ℝ := fun k => z (.u i k)

/-- A deviation from the desired motion that starts at rate of turn 0 instead of 1/2, moves over five seconds (collocated) as its accelerations say, and does not exceed
their limits. -/
structure Regulates (env : Mesh.Env ℝ) (m : Mesh ℝ) (z : QVar (nColloc m) 5 2 → ℝ) : Prop where
  moves : ∀ (i : Fin (nColloc m)) (k : Fin 5), slope env (spans 1 m) (fun j => if h : j < nColloc m + 1 then stateAt z ⟨j, h⟩ k else 0) i =
    5 * errRate (stateAt z i.castSucc) (inputAt z i) k
  start : stateAt z 0 = ![0, 0, 0, 0, -(1 / 2)]
  limits : ∀ (i : Fin (nColloc m)) (k : Fin 2), |inputAt z i k| ≤ 1

/-- Half the integral over five seconds, by quadrature, of the squared errors and accelerations. -/
noncomputable def effort (env : Mesh.Env ℝ) (m : Mesh ℝ) (z : QVar (nColloc m) 5 2 → ℝ) : ℝ :=
  5 / 2 * ∑ i : Fin (nColloc m), wAt env m i * (∑ k, stateAt z i.castSucc k ^ 2 + ∑ k, inputAt z i k ^ 2)

/-- The best of these deviations. -/
def IsBest (env : Mesh.Env ℝ) (m : Mesh ℝ) (z : QVar (nColloc m) 5 2 → ℝ) : Prop :=
  Regulates env m z ∧ ∀ z', Regulates env m z' → effort env m z ≤ effort env m z'

end Verif.SE2
