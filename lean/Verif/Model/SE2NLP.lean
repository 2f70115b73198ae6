import Verif.Model.SE2Ocp
import Verif.Model.MeshRefine
import Verif.Model.Ipopt

/-!
# The problem on SE(2) as a nonlinear program (examples/ocp_se2_nlp.cpp)

The whole of `main` without the measurement of time, the output and the plots. Simplifications:
* the derivatives of the constant references, which the code takes by automatic differentiation, are zero;
* the identity of the group and the operations on the vector space of inputs are the parameters `idX` and `LU`;
* the callbacks that Ipopt makes for a mesh and a warm start are the parameter `ipopt`; the options that do not change what the wrapper does
  are passed to Ipopt only (ocp_se2_nlp.cpp:58-70), so they are not kept;
* `jl`, `ju`, `jx`, `jlam` are the contents of fresh vectors, `junk` is that of a fresh status.
-/

namespace Verif.SE2

open Verif.Mesh Verif.Sparse Verif.MeshFn Verif.NLP Verif.Lie Verif.Flatten Verif.Ipopt

open Verif.QP (Ext)

section

variable {X F : Type*} [Field F]

/-- `xl` (ocp_se2_nlp.cpp:28). -/
def nlpXl (idX : X) : Traj X F 5 := ⟨fun _ => idX, fun _ => 0⟩

/-- `ul` (ocp_se2_nlp.cpp:29). -/
def nlpUl : Traj (Fin 2 → F) F 2 := ⟨fun _ _ => 1 / 100, fun _ => 0⟩

/-- `flatocp` (ocp_se2_nlp.cpp:31). -/
def flatSe2 [DecidableEq F] (idX : X) (P : PoseOps X F) (LU : LieOps (Fin 2 → F) F 2) : OCP F 5 2 1 2 6 :=
  flattenOCP P.toLieOps LU (ocpSe2 P) (nlpXl idX) nlpUl

/-- The string options (ocp_se2_nlp.cpp:62-67). -/
def nlpOptions : List (String × String) :=
  [("linear_solver", "mumps"), ("hessian_approximation", "limited-memory"), ("print_timing_statistics", "yes")]

end

section

variable {X : Type*}

/-- `ocp_to_nlp` and `solve_nlp_ipopt` (ocp_se2_nlp.cpp:52-70). -/
noncomputable def nlpSolve (idX : X) (env : Mesh.Env ℝ) (P : PoseOps X ℝ) (LU : LieOps (Fin 2 → ℝ) ℝ 2) (jl ju : ℕ → Ext ℝ) (junk : NLPStatus)
    (ipopt : Mesh ℝ → Option (NLPSol ℝ) → List (CB ℝ)) (m : Mesh ℝ) (start : Option (NLPSol ℝ)) : Option (NLPSol ℝ) :=
  solveNlpIpopt (ofOCP env (flatSe2 idX P LU) m jl ju) (NLP.Obj.init 5 2 1 2 6 (nColloc m)) junk start nlpOptions (ipopt m start)

/-- `target_err` (ocp_se2_nlp.cpp:36). -/
noncomputable def targetErr : ℝ := 1 / 10 ^ 6

/-- What `main` computes (ocp_se2_nlp.cpp:25-91): the passes of the loop with the mesh at its end, and `sols`. -/
noncomputable def nlpMain (idX : X) (env : Mesh.Env ℝ) (P : PoseOps X ℝ) (LU : LieOps (Fin 2 → ℝ) ℝ 2) (jl ju : ℕ → Ext ℝ) (junk : NLPStatus)
    (ipopt : Mesh ℝ → Option (NLPSol ℝ) → List (CB ℝ)) (jx jlam : ℕ → ℝ) : Option (Outcome 5 2 1 2 6 × List (GOCPSol X (Fin 2 → ℝ) ℝ 5 1 2 6)) :=
  (refineLoop env 5 10 (nlpSolve idX env P LU jl ju junk ipopt) (fun t x u => (flatSe2 idX P LU).f.val (pt t x u)) targetErr jx jlam 10 [⟨5, 0⟩] none).map
    fun o => (o, o.passes.map fun p => unflattenOcpsol P.toLieOps LU p.sol (nlpXl idX : Traj X ℝ 5).val (nlpUl : Traj (Fin 2 → ℝ) ℝ 2).val)

end

end Verif.SE2
