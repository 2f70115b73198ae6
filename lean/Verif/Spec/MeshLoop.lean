import Verif.Spec.MeshRefine
import Verif.Spec.OCPNLP
import Verif.Model.MeshRefine

/-! # Specification of the refinement loop -/

namespace Verif.NLP

open Verif.Mesh

section

variable (nx nu nq ncr nce : ℕ)

/-- The vectors of a solution have the sizes that belong to the mesh. -/
def SizedFor (m : Mesh ℝ) (s : NLPSol ℝ) : Prop := s.x.size = nVars (nColloc m) nx nu nq ∧ s.lambda.size = nCons (nColloc m) nx nq ncr nce

/-- What is asked of transcription and Ipopt: on a valid mesh and a warm start of the right size they return, with a solution of the right
size and a nonzero final time (entry 0). -/
def Returns (Kmin Kmax : ℕ) (solve : Mesh ℝ → Option (NLPSol ℝ) → Option (NLPSol ℝ)) : Prop :=
  ∀ m start, Valid Kmin Kmax m → (∀ s, start = some s → SizedFor nx nu nq ncr nce m s) →
    ∃ s, solve m start = some s ∧ SizedFor nx nu nq ncr nce m s ∧ s.x.val 0 ≠ 0

end

section

variable {nx nu nq ncr nce : ℕ}

/-- A pass is in order: a valid mesh without extra degrees, a warm start of the right size, the solution is that of the solver for this mesh
and start, its functions are defined everywhere, and entry `i` of the errors is the error on interval `i` measured with one point more than the mesh has there. -/
structure PassOK (env : Mesh.Env ℝ) (Kmin Kmax : ℕ) (solve : Mesh ℝ → Option (NLPSol ℝ) → Option (NLPSol ℝ))
    (f : ℝ → (Fin nx → ℝ) → (Fin nu → ℝ) → (Fin nx → ℝ)) (p : Pass nx nu nq ncr nce) : Prop where
  valid : Valid Kmin Kmax p.mesh
  degrees : ∀ v ∈ p.mesh, v.K ≤ Kmax
  start : ∀ s, p.start = some s → SizedFor nx nu nq ncr nce p.mesh s
  solved : ∃ s, solve p.mesh p.start = some s ∧ nlpsolToOcpsol nx nu nq ncr nce env p.mesh s = some p.sol
  errors : p.errs.length = p.mesh.length ∧ ∃ (xf : ℝ → Fin nx → ℝ) (uf : ℝ → Fin nu → ℝ),
    (∀ t, p.sol.x t = some (xf t) ∧ p.sol.u t = some (uf t)) ∧
    ∀ (i : ℕ) (v : Ival ℝ) (b : ℝ), (spans 1 p.mesh)[i]? = some (v, b) → p.errs[i]? = some (ivalError env f (v.K + 1) v.tau0 b p.sol.t0 p.sol.tf xf uf)

/-- Pass `q` follows pass `p`: an error of `p` exceeded the target; the breakpoints of `p` are kept; there are more points; the mesh is
the refinement of that of `p`; the warm start of `q` describes a solution with the same final time, integrals and multipliers of end
and integral constraints, with the same state, input and multipliers at the nodes of the new mesh, and it is the same solution at
every time if no interval of more than the least degree was split. -/
structure NextOK (env : Mesh.Env ℝ) (Kmin Kmax : ℕ) (target : ℝ) (p q : Pass nx nu nq ncr nce) : Prop where
  above : ∃ e ∈ p.errs, target < e
  breakpoints : (p.mesh.map Ival.tau0).Sublist (q.mesh.map Ival.tau0)
  points : (p.mesh.map Ival.K).sum < (q.mesh.map Ival.K).sum
  refined : refineErrors env Kmin Kmax p.mesh p.errs (1 / 10 * target) = some q.mesh
  warm : ∃ s o, q.start = some s ∧ nlpsolToOcpsol nx nu nq ncr nce env q.mesh s = some o ∧
    o.t0 = p.sol.t0 ∧ o.tf = p.sol.tf ∧ o.Q = p.sol.Q ∧ o.lambda_q = p.sol.lambda_q ∧ o.lambda_ce = p.sol.lambda_ce ∧
    (∀ τ ∈ allNodes env q.mesh, o.x (τ * p.sol.tf) = p.sol.x (τ * p.sol.tf)) ∧
    (∀ τ ∈ allNodes env q.mesh, τ < 1 → o.u (τ * p.sol.tf) = p.sol.u (τ * p.sol.tf) ∧
      o.lambda_dyn (τ * p.sol.tf) = p.sol.lambda_dyn (τ * p.sol.tf) ∧ o.lambda_cr (τ * p.sol.tf) = p.sol.lambda_cr (τ * p.sol.tf)) ∧
    (NoSplit Kmin Kmax env.growth (1 / 10 * target) p.mesh p.errs → o = p.sol)

end

end Verif.NLP
