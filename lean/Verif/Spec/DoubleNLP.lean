import Verif.Model.DoubleNLP
import Verif.Spec.Collocated
import Verif.Spec.MeshLoop

/-! # Specification: the nonlinear program of the double integrator -/

namespace Verif.DI

open Verif.Mesh Verif.MeshFn Verif.NLP

/-- A body on a line with position `x 0`, speed `x 1` and acceleration `u 0`: it starts at 1 with speed 1, rests after five seconds at 0.1, and at the
collocation points moves accordingly, with speeds between -0.5 and 1.5 and accelerations between -1 and 1. -/
structure Moves (env : Mesh.Env ℝ) (m : Mesh ℝ) (x : ℝ → Fin 2 → ℝ) (u : ℝ → Fin 1 → ℝ) : Prop where
  moves : ∀ i : Fin (nColloc m), ∀ p ∈ spans 1 m, p.1.tau0 ≤ tauAt env m i → tauAt env m i < p.2 →
    HasDerivWithinAt x ![x (5 * tauAt env m i) 1, u (5 * tauAt env m i) 0] (Set.Icc (5 * p.1.tau0) (5 * p.2)) (5 * tauAt env m i)
  speed : ∀ i : Fin (nColloc m), -(1 / 2) ≤ x (5 * tauAt env m i) 1 ∧ x (5 * tauAt env m i) 1 ≤ 3 / 2
  acceleration : ∀ i : Fin (nColloc m), |u (5 * tauAt env m i) 0| ≤ 1
  start : x 0 = ![1, 1]
  stop : x 5 = ![1 / 10, 0]

/-- The integral, by quadrature, of the squares of position, speed and acceleration. -/
noncomputable def expense (env : Mesh.Env ℝ) (m : Mesh ℝ) (x : ℝ → Fin 2 → ℝ) (u : ℝ → Fin 1 → ℝ) : ℝ :=
  5 * ∑ i : Fin (nColloc m), wAt env m i * (x (5 * tauAt env m i) 0 ^ 2 + x (5 * tauAt env m i) 1 ^ 2 + u (5 * tauAt env m i) 0 ^ 2)

/-- No feasible vector of the program has a smaller objective. -/
def Best (env : Mesh.Env ℝ) (m : Mesh ℝ) (z : NVar (nColloc m) 2 1 1 → ℝ) : Prop :=
  NLP.Feasible ocpDi env m z ∧ ∀ z', NLP.Feasible ocpDi env m z' → objective ocpDi z ≤ objective ocpDi z'

/-- The same trajectory, with the same errors, on the same mesh. -/
structure SamePass (p q : Pass 2 1 1 2 5) : Prop where
  mesh : p.mesh = q.mesh
  t0 : p.sol.t0 = q.sol.t0
  tf : p.sol.tf = q.sol.tf
  x : p.sol.x = q.sol.x
  u : p.sol.u = q.sol.u
  Q : p.sol.Q = q.sol.Q
  errs : p.errs = q.errs

end Verif.DI
