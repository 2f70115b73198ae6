import Verif.Spec.MPCSolver
import Verif.Spec.Mesh

/-! # Specification: histories that use only objects that exist, and the problem of a call -/

namespace Verif.MPC

open Verif.Mesh Verif.NLP Verif.OQP

variable {T σ X U : Type*} {nx nu ncr : ℕ}

/-- Arguments with which a controller can be made: at least one collocation point per interval, not more inputs than states (mpc.hpp:219-223 writes
outside the Hessian otherwise), a horizon that is not negative, and quadrature rules of the degrees of the mesh. -/
structure Makeable (env : Mesh.Env ℝ) (a : Args T ℝ X U nx nu ncr) : Prop where
  kmesh : 1 ≤ a.Kmesh
  size : nu ≤ nx
  horizon : 0 ≤ a.tf
  rule : ∀ K, a.Kmesh ≤ K → K ≤ a.Kmesh + 1 → IsLGR env K

/-- A history of calls when `k` controllers exist: only existing controllers are used. -/
def Legal (env : Mesh.Env ℝ) : ℕ → List (Op T ℝ X U nx nu ncr) → Prop
  | _, [] => True
  | k, .new a :: l => Makeable env a ∧ Legal env (k + 1) l
  | k, .copy i :: l => i < k ∧ Legal env (k + 1) l
  | k, .assign i j :: l => i < k ∧ j < k ∧ Legal env k l
  | k, .call i _ _ :: l => i < k ∧ Legal env k l
  | k, .setX i _ _ :: l => i < k ∧ Legal env k l
  | k, .setU i _ :: l => i < k ∧ Legal env k l
  | k, .setW i _ _ _ :: l => i < k ∧ Legal env k l
  | k, .reset i :: l => i < k ∧ Legal env k l

/-- Whether an operation is a call of `operator()`. -/
def Op.isCall : Op T ℝ X U nx nu ncr → Bool
  | .call _ _ _ => true
  | _ => false

/-- Deviations that a call may answer: the collocated linearised dynamics from the current state, and the linearised running constraints. -/
def Admissible (sys : Sys T ℝ σ X U nx nu) (a : Args T ℝ X U nx nu ncr) (xd : T → X) (dxd : T → Fin nx → ℝ) (ud : T → U) (t : T) (x : X)
    (z : QVar (nColloc (meshOf a)) nx nu → ℝ) : Prop :=
  Horizon sys (meshOf a) a xd dxd ud t x z ∧
    if a.cr.timed then RunningAround sys (meshOf a) a xd ud t z else RunningAtDefault sys (meshOf a) a z

end Verif.MPC
