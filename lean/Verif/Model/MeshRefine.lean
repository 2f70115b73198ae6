import Verif.Model.OCPNLP
import Verif.Model.DynError

/-!
# The mesh refinement loop of the examples (examples/ocp_doubleintegrator_nlp.cpp:28-82, examples/ocp_se2_nlp.cpp:35-91)

The loop that the library is made for: transcribe, solve, measure the error, refine, convert the solution to the new mesh, start over.
* Transcription and Ipopt together are the parameter `solve` (mesh and optional warm start to solution); they are modelled in
  Model/OCPNLP and Model/Ipopt.
* Printing, timing and plotting are left out. `unflatten_ocpsol` (ocp_se2_nlp.cpp:76) only feeds the plots.
* `mesh_dyn_error` calls the functions of the solution, which here are partial; a call that fails yields zero in this model. That such a call
  does not occur is part of the theorems.
* Exact real arithmetic.
-/

namespace Verif.NLP

open Verif.Mesh Verif.MeshFn

/-- What one pass of the loop body saw: the mesh, the warm start, the solution and the errors. -/
structure Pass (nx nu nq ncr nce : ℕ) where
  mesh : Mesh ℝ
  start : Option (NLPSol ℝ)
  sol : OCPSol ℝ nx nu nq ncr nce
  errs : List ℝ

/-- The program after the loop: the mesh, the passes in order (`sols` are their solutions), and whether the loop was left by `break`. -/
structure Outcome (nx nu nq ncr nce : ℕ) where
  mesh : Mesh ℝ
  passes : List (Pass nx nu nq ncr nce)
  broke : Bool

/-- `errs.maxCoeff()` (ocp_se2_nlp.cpp:85); on the empty vector undefined, here zero. -/
noncomputable def maxErr : List ℝ → ℝ
  | [] => 0
  | e :: es => es.foldl max e

section

variable {nx nu nq ncr nce : ℕ}

/-- `increase_degrees(); mesh_dyn_error(...); decrease_degrees()` (ocp_se2_nlp.cpp:79-81): errors and the mesh afterwards. -/
noncomputable def measure (env : Mesh.Env ℝ) (Kmin Kmax : ℕ) (f : ℝ → (Fin nx → ℝ) → (Fin nu → ℝ) → (Fin nx → ℝ)) (m : Mesh ℝ)
    (sol : OCPSol ℝ nx nu nq ncr nce) : List ℝ × Mesh ℝ :=
  let m1 := increaseDegrees Kmax m
  let errs := dynError env f m1 sol.t0 sol.tf (fun t => (sol.x t).getD 0) (fun t => (sol.u t).getD 0)
  (errs, decreaseDegrees Kmin m1)

/-- The loop (ocp_se2_nlp.cpp:47-91): `n` passes are left, `m` and `start` are `mesh` and `nlpsol`, `jx`, `jl` the contents of fresh
vectors. -/
noncomputable def refineLoop (env : Mesh.Env ℝ) (Kmin Kmax : ℕ) (solve : Mesh ℝ → Option (NLPSol ℝ) → Option (NLPSol ℝ))
    (f : ℝ → (Fin nx → ℝ) → (Fin nu → ℝ) → (Fin nx → ℝ)) (target : ℝ) (jx jl : ℕ → ℝ) :
    ℕ → Mesh ℝ → Option (NLPSol ℝ) → Option (Outcome nx nu nq ncr nce)
  | 0, m, _ => some ⟨m, [], false⟩
  | n + 1, m, start =>
    match solve m start with
    | none => none
    | some nlpsol =>
      match nlpsolToOcpsol nx nu nq ncr nce env m nlpsol with
      | none => none
      | some sol =>
        let p := measure env Kmin Kmax f m sol
        let pass : Pass nx nu nq ncr nce := ⟨m, start, sol, p.1⟩
        if target < maxErr p.1 then
          match refineErrors env Kmin Kmax p.2 p.1 (1 / 10 * target) with
          | none => none
          | some m' =>
            match ocpsolToNlpsol env m' sol jx jl with
            | none => none
            | some nlpsol' =>
              match refineLoop env Kmin Kmax solve f target jx jl n m' (some nlpsol') with
              | none => none
              | some o => some { o with passes := pass :: o.passes }
        else some ⟨p.2, [pass], true⟩

end

end Verif.NLP
