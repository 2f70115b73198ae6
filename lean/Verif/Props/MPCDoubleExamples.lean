import Verif.Props.MPCDouble
import Verif.Props.MPCAlwaysExamples
import Verif.Proofs.LGR

/-! # The example with its parameters (C120) -/

set_option linter.unusedSectionVars false

namespace Verif.MPC

open Verif.Mesh Verif.Sparse Verif.MeshFn Verif.NLP Verif.OQP Verif.QPSpec Verif.Lie Verif.Flatten
open Verif.QP (Ext Status Determines)
open scoped Matrix

/-- `qp = {.scaling = false, .polish = false}` (examples/mpc_doubleintegrator.cpp:51). -/
noncomputable def diPrm : QP.Params ℝ := { QP.Params.default with scaling := false, polish := false }

theorem di_solves : Solves QP.realEnv diPrm where
  upper := realEnv_upper
  sqrt := QP.realEnv_sqrt
  ldlt := QP.realEnv_ldlt
  finds := fun n m p hP s hs => QP.realEnv_finds n _ (by norm_num [diPrm, QP.Params.default]) (by norm_num [diPrm, QP.Params.default]) m p hP s hs
  alpha := by norm_num [diPrm, QP.Params.default]
  sigma := by norm_num [diPrm, QP.Params.default]
  rho := by norm_num [diPrm, QP.Params.default]
  epsAbs := by norm_num [diPrm, QP.Params.default]
  epsRel := by norm_num [diPrm, QP.Params.default]
  epsPrimalInf := by norm_num [diPrm, QP.Params.default]
  epsDualInf := by norm_num [diPrm, QP.Params.default]
  check := by norm_num [diPrm, QP.Params.default]

theorem di_params : DiParams diPrm :=
  ⟨rfl, rfl, rfl, by norm_num [diPrm, QP.Params.default], by norm_num [diPrm, QP.Params.default], by norm_num [diPrm, QP.Params.default]⟩

/-- `mpc_double` with the rule of Legendre, Gauss and Radau, the linear algebra of the reals, the example's parameters and its 1200 turns, from any state: every call
reports Optimal, and the input exceeds its bound by at most a 999th of one more than the largest of `3 / 4`, `|x| + 1 / 2` and `|v|`. -/
example (g : Fin 2 → ℝ) :
    ∃ N out, (∀ fuel, N ≤ fuel → diMain (diSys Mesh.realEnv (qpObject QP.realEnv diPrm fuel)) diDes diDesDot g 1200 = some out) ∧
      out.length = 1200 ∧ Flow g out ∧ ∀ e ∈ out, e.2.2 = .optimal ∧ |e.2.1 0| ≤ 1 / 2 + (1 + max (3 / 4) (max (|e.1 0| + 1 / 2) |e.1 1|)) / 999 := by
  obtain ⟨N, out, h1, h2, h3, h4⟩ := mpc_double (solver := bestSolver) (fun K h _ => realEnv_lgr K (by omega)) realEnv_lagrange di_solves di_params g 1200
  refine ⟨N, out, h1, h2, h3, fun e he => ⟨(h4 e he).1, (h4 e he).2.trans (le_of_eq ?_)⟩⟩
  have : diPrm.epsAbs = 1 / 1000 := rfl
  have h6 : diPrm.epsRel = 1 / 1000 := rfl
  rw [this, h6]
  ring

/-- Two turns that meet `Flow`: from rest at the origin with the input 1/2, then 0. -/
example : Flow ![0, 0] [(![0, 0], ![1 / 2], .optimal), (![1 / 1600, 1 / 40], ![0], .optimal)] := by
  refine ⟨rfl, ?_, trivial⟩
  funext k
  fin_cases k <;> norm_num

/-- `qp_square_verdict`: two rows `x`, `x + y` determine two variables within a factor of 2. -/
example : Determines (!![1, 0; 1, 1] : Matrix (Fin 2) (Fin 2) ℝ) 2 := by
  intro v r hr j
  have h0 := hr 0
  have h1 := hr 1
  simp [Matrix.vecHead, Matrix.vecTail] at h0 h1
  rw [abs_le] at h0 h1 ⊢
  fin_cases j <;> constructor <;> simp <;> linarith

/-- The tolerance is needed: one row `1e-6 x` determines `x` within a factor of a million, and `1 ≤ 1e-6 x ≤ 2` is called infeasible with the default tolerance
of 1e-4, which is above 1e-6. -/
example : (∀ v r : ℚ, |(QP.flatPbm.A *ᵥ fun _ => v) 0| ≤ r → |v| ≤ 1000000 * r) ∧
    ∃ sol, QP.solveQP QP.env1 QP.Params.default QP.flatPbm none 10 = .ok sol ∧ sol.code = .primalInfeasible := by
  refine ⟨fun v r h => ?_, ?_⟩
  · simp [QP.flatPbm, Matrix.mulVec, dotProduct] at h
    linarith
  · obtain ⟨sol, h1, h2, -⟩ := QP.qp_primal_infeasible_unsound
    exact ⟨sol, h1, h2⟩

end Verif.MPC
