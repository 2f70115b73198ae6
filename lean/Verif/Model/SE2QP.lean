import Verif.Model.SE2Ocp
import Verif.Model.OCPQPLie
import Verif.Model.MPCSolver

/-!
# The problem on SE(2) as a quadratic program (examples/ocp_se2_qp.cpp)

The whole of `main` without the measurement of time, the output and the plots. Simplifications:
* the derivative of `xdes`, which the code takes by automatic differentiation, is its value `(1, 0, 1/2, 0, 0)` (it is the velocity: `qpLin_vel`);
* the sparse program is read by the solver as its numbers (`pbmOf`), as in `Verif/Model/MPCSolver.lean`;
* the operations on the vector space of inputs are the parameter `LU`;
* the square root, the factorisation and the clock of the solver are parameters, as in `Verif/Model/QPSolver.lean`.
-/

namespace Verif.SE2

open Verif.Mesh Verif.Sparse Verif.MeshFn Verif.NLP Verif.Lie Verif.Flatten Verif.OQP
open Verif.QP (Ext Status Params Out Sol solveQP)

variable {X F : Type*} [Field F] [LinearOrder F]

/-- The mesh: `Mesh<5, 5>`, `refine_ph(0, 50)` (ocp_se2_qp.cpp:25-26). -/
def qpMesh : Option (Mesh F) := refinePh 5 5 [⟨5, 0⟩] 0 50

/-- `ocp_se2.cel.x()` (ocp_se2_qp.cpp:28). -/
def qpTime (P : PoseOps X F) : F :=
  match (ocpSe2 P).cel 0 with
  | .fin a => a
  | _ => 0

/-- `xdes` with its derivative, and `ul_fun` (ocp_se2_qp.cpp:29, 33). -/
def qpLin (P : PoseOps X F) : GLin X (Fin 2 → F) F 5 := ⟨xdes P, fun _ => ![1, 0, 1 / 2, 0, 0], fun _ => ![0, 0]⟩

/-- `qp` (ocp_se2_qp.cpp:33). -/
def qpOf (idX : X) (env : Mesh.Env F) (P : PoseOps X F) (m : Mesh F) : Option (QPD F) :=
  ocpToQpG 2 idX ![0, 0] env m P.toLieOps false (ocpSe2 P) (qpTime P) (qpLin P)

/-- The vector of a solution. -/
def vecOf {n : ℕ} (x : Fin n → F) : Vec F := ⟨n, fun j => if h : j < n then x ⟨j, h⟩ else 0⟩

/-- What `main` computes (ocp_se2_qp.cpp:25-45): the status of the solver and the functions of the solution. The outer `none` is a failed assertion. -/
def qpMain (idX : X) (env : Mesh.Env F) (P : PoseOps X F) (LU : LieOps (Fin 2 → F) F 2) (qenv : (n : ℕ) → QP.Env F n) (prm : Params F) (fuel : ℕ) :
    Option (Out (Status × (F → Option X) × (F → Option (Fin 2 → F)))) :=
  qpMesh.bind fun m =>
  (qpOf idX env P m).map fun qp =>
  match solveQP (qenv (nvar 5 2 (nColloc m))) prm (MPC.pbmOf qp (nvar 5 2 (nColloc m)) (ncon 5 2 6 (nColloc m))) none fuel with
  | .ok sol => .ok (sol.code, qpsolToOcpsolG P.toLieOps LU env m (vecOf sol.primal) (qpTime P) (qpLin P))
  | .undef => .undef
  | .timeout => .timeout

end Verif.SE2
