import Verif.Model.DoubleInt
import Verif.Model.MeshRefine
import Verif.Model.Ipopt

/-!
# The double integrator problem as a nonlinear program (examples/ocp_doubleintegrator_nlp.cpp)

The whole of `main` without the test of the derivatives (its result is not used; see C87), the measurement of time, the output and the plots. Simplifications:
* the callbacks that Ipopt makes for a mesh and a warm start are the parameter `ipopt`; the options that do not change what the wrapper does are not kept;
* `jl`, `ju`, `jx`, `jlam` are the contents of fresh vectors, `junk` is that of a fresh status.
-/

namespace Verif.DI

open Verif.Mesh Verif.MeshFn Verif.NLP Verif.Ipopt

open Verif.QP (Ext)

/-- The string options (ocp_doubleintegrator_nlp.cpp:55-61). -/
def nlpOptions : List (String × String) :=
  [("linear_solver", "mumps"), ("hessian_approximation", "exact"), ("print_timing_statistics", "yes")]

/-- `ocp_to_nlp` and `solve_nlp_ipopt` (ocp_doubleintegrator_nlp.cpp:44-64). -/
noncomputable def nlpSolve (env : Mesh.Env ℝ) (jl ju : ℕ → Ext ℝ) (junk : NLPStatus) (ipopt : Mesh ℝ → Option (NLPSol ℝ) → List (CB ℝ)) (m : Mesh ℝ)
    (start : Option (NLPSol ℝ)) : Option (NLPSol ℝ) :=
  solveNlpIpopt (ofOCP env ocpDi m jl ju) (NLP.Obj.init 2 1 1 2 5 (nColloc m)) junk start nlpOptions (ipopt m start)

/-- `target_err` (ocp_doubleintegrator_nlp.cpp:28). -/
noncomputable def targetErr : ℝ := 1 / 10 ^ 6

/-- What `main` computes (ocp_doubleintegrator_nlp.cpp:27-83): the passes of the loop, whose solutions are `sols`, and the mesh at its end. -/
noncomputable def nlpMain (env : Mesh.Env ℝ) (jl ju : ℕ → Ext ℝ) (junk : NLPStatus) (ipopt : Mesh ℝ → Option (NLPSol ℝ) → List (CB ℝ)) (jx jlam : ℕ → ℝ) :
    Option (Outcome 2 1 1 2 5) :=
  refineLoop env 5 10 (nlpSolve env jl ju junk ipopt) (fun t x u => (ocpDi (F := ℝ)).f.val (pt t x u)) targetErr jx jlam 10 [⟨5, 0⟩] none

end Verif.DI
