import Verif.Props.QPRoundInf
import Verif.Props.QPRoundExamples

/-! # Verdicts of infeasibility in 53 bits (C135) -/

namespace Verif.QP

open Matrix Verif.QPSpec

theorem floatArith_dot (p : ℕ) : DotOk (floatArith p) (1 / 2 ^ (p + 1)) := fun v w => (seqDot_err (by positivity) (flBits_err p) _ v w).1

/-- A run in 53 bits that ends `PrimalInfeasible` although there is a feasible point: the tolerance of the certificate cannot be left out. -/
theorem flat_run_float : ∃ sol, solveQPR (floatArith 52) env1 { Params.default with polish := false } flatPbm none 10 = .ok sol ∧ sol.code = .primalInfeasible ∧ ∃ x, Feasible flatPbm x := by
  obtain ⟨sol, h, h'⟩ := Out.test_iff (o := solveQPR (floatArith 52) env1 { Params.default with polish := false } flatPbm none 10)
    (f := fun sol => decide (sol.code = .primalInfeasible)) (by decide +kernel)
  refine ⟨sol, h, of_decide_eq_true h', fun _ => 1000000, fun i => ?_⟩
  norm_num [flatPbm, lower, upper, Matrix.mulVec, dotProduct]

example : ∃ d, ApproxFarkasR flatPbm (1 / 10000) (1 / 2 ^ 53) d := by
  obtain ⟨sol, h, hc, x, hx⟩ := flat_run_float
  rcases qp_primal_infeasible_rounded (floatArith_rounds 52) (by norm_num [Params.default]) h hc with h1 | ⟨d, r, hd, -⟩
  · exact absurd hx (h1 x)
  · refine ⟨d, ?_⟩
    have e : ({ Params.default with polish := false } : Params ℚ).epsPrimalInf = 1 / 10000 := by norm_num [Params.default]
    rw [e] at hd
    exact hd

/-- `tenthPbm` has room: zero keeps a distance of 10 from both bounds. No run in 53 bits ends with a verdict of infeasibility. -/
example (ws : Option ((Fin 1 → ℚ) × (Fin 1 → ℚ))) (fuel : ℕ) (sol : Sol ℚ 1 1)
    (h : solveQPR (floatArith 52) env1 { Params.default with polish := false } tenthPbm ws fuel = .ok sol) : sol.code ≠ .primalInfeasible ∧ sol.code ≠ .dualInfeasible := by
  constructor
  · refine qp_slack_rounded (floatArith_rounds 52) (by norm_num [Params.default]) h (x := 0) (δ := 10) (by norm_num) (fun i => ?_) ?_
    · refine ⟨by simp [tenthPbm], by simp [tenthPbm], fun a ha => ?_, fun b hb => ?_⟩
      · simp only [tenthPbm, Ext.fin.injEq] at ha
        rw [← ha]; simp
      · simp only [tenthPbm, Ext.fin.injEq] at hb
        rw [← hb]; simp
    · norm_num [Params.default, tenthPbm, boundAbs, amp]
  · refine qp_convex_rounded (floatArith_rounds 52) (by norm_num [Params.default]) h (fun d hd => ⟨0, ?_⟩) ⟨0, -10, 10, rfl, rfl⟩
    have h0 : d 0 ≠ 0 := fun h0 => hd (by funext i; rw [Subsingleton.elim i 0]; exact h0)
    have hn : norm d = |d 0| := by
      refine le_antisymm ?_ (le_norm d 0)
      obtain ⟨_, _, h1 | ⟨i, hi⟩⟩ := norm_isMaxNorm d
      · rw [h1]; exact abs_nonneg _
      · rw [hi, Subsingleton.elim i 0]
    have hp := abs_pos.2 h0
    rw [hn]
    norm_num [Params.default, tenthPbm, amp, absMV, Matrix.mulVec, dotProduct, abs_mul]
    nlinarith

/-- Tolerance zero: crossed bounds are still seen. -/
def crossedPbm : Pbm ℚ 1 1 := ⟨fun _ _ => 1, 0, 1, fun _ => .fin 2, fun _ => .fin 1⟩

example : ∃ sol, solveQPR (floatArith 52) env1 { Params.default with polish := false, epsPrimalInf := 0 } crossedPbm none 10 = .ok sol ∧ sol.code = .primalInfeasible ∧ ¬Feasible crossedPbm 0 := by
  obtain ⟨sol, h, h'⟩ := Out.test_iff (o := solveQPR (floatArith 52) env1 { Params.default with polish := false, epsPrimalInf := 0 } crossedPbm none 10)
    (f := fun sol => decide (sol.code = .primalInfeasible)) (by decide +kernel)
  exact ⟨sol, h, of_decide_eq_true h', qp_primal_infeasible_rounded_zero (floatArith_rounds 52) rfl h (of_decide_eq_true h') 0⟩

/-- A run in 53 bits that ends `DualInfeasible`: minimise `-x` with one lower bound. -/
def rayPbm : Pbm ℚ 1 1 := ⟨0, fun _ => -1, 1, fun _ => .fin 0, fun _ => .pos⟩

example : ∃ sol d, solveQPR (floatArith 52) env1 { Params.default with polish := false } rayPbm none 100 = .ok sol ∧ sol.code = .dualInfeasible ∧
    ApproxRecessionR rayPbm (1 / 10000) (1 / 2 ^ 53) d := by
  obtain ⟨sol, h, h'⟩ := Out.test_iff (o := solveQPR (floatArith 52) env1 { Params.default with polish := false } rayPbm none 100)
    (f := fun sol => decide (sol.code = .dualInfeasible)) (by decide +kernel)
  obtain ⟨d, hd⟩ := qp_dual_infeasible_rounded (floatArith_rounds 52) (floatArith_dot 52) (by norm_num [Params.default]) h (of_decide_eq_true h')
  refine ⟨sol, d, h, of_decide_eq_true h', ?_⟩
  have e : ({ Params.default with polish := false } : Params ℚ).epsDualInf = 1 / 10000 := by norm_num [Params.default]
  rw [e] at hd
  exact hd

end Verif.QP
