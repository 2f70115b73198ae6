import Verif.Props.QPRound
import Verif.Proofs.QPFloat
import Verif.Proofs.QPWitness

/-!
# Runs of the solver in binary floating point

The hypotheses of `qp_optimal_certificate_rounded` are met by numbers of 53 bits, rounded to nearest with ties to even.
-/

namespace Verif.QP

open Matrix Verif.QPSpec

/-- One tenth is not a number of 53 bits: the neighbour that is taken is the one of `double`. -/
example : flBits 52 (1 / 10) = 3602879701896397 / 36028797018963968 ∧ flBits 52 (1 / 10) ≠ 1 / 10 := by decide +kernel

/-- A tie, to even. -/
example : flBits 2 9 = 8 ∧ flBits 2 11 = 12 ∧ flBits 2 (-9) = -8 := by decide +kernel

/-- The arithmetic of 53 bits meets the assumptions with the unit roundoff of `double`. -/
example : Rounds (floatArith 52) (1 / 9007199254740992) := by
  have := floatArith_rounds 52
  norm_num at this ⊢
  exact this

/-- A run in 53 bits that ends `Optimal`. -/
theorem lp_run_float : ∃ sol, solveQPR (floatArith 52) env1 { Params.default with polish := false } lpPbm none 10 = .ok sol ∧
    sol.code = .optimal ∧ sol.iter = 2 := by
  obtain ⟨sol, h, h'⟩ := Out.test_iff (o := solveQPR (floatArith 52) env1 { Params.default with polish := false } lpPbm none 10)
    (f := fun sol => decide (sol.code = .optimal ∧ sol.iter = 2)) (by decide +kernel)
  exact ⟨sol, h, of_decide_eq_true h'⟩

/-- The certificate for that run. -/
example : ∃ sol d, solveQPR (floatArith 52) env1 { Params.default with polish := false } lpPbm none 10 = .ok sol ∧
    ApproxKKTR lpPbm (1 / 1000) (1 / 1000) (1 / 2 ^ 53) sol.primal sol.dual d := by
  obtain ⟨sol, h, hc, -⟩ := lp_run_float
  obtain ⟨s, old, new, w, -, -, -, -, hk⟩ := qp_optimal_certificate_rounded (floatArith 52) _ (floatArith_rounds 52) env1 _ lpPbm none 10
    sol env1_sqrt (by simp [Params.default]) (by simp [Params.default]) (by simp [Params.default]) h hc
  exact ⟨sol, _, h, hk⟩

/-- minimise `x^2 / 20 - x / 2` subject to `-10 ≤ x ≤ 10`, with one tenth as a `double`. -/
def tenthPbm : Pbm ℚ 1 1 :=
  ⟨fun _ _ => 3602879701896397 / 36028797018963968, fun _ => -1 / 2, 1, fun _ => .fin (-10), fun _ => .fin 10⟩

/-- The certificate of exact arithmetic is false in 53 bits: with tolerances zero, `Optimal` is returned at a point that does not
satisfy the KKT conditions (the gradient is `2^-55`; it is rounded to zero in the test). The terms in `u` cannot be left out. -/
theorem qp_optimal_certificate_float_inexact : ∃ sol,
    solveQPR (floatArith 52) env1 { Params.default with polish := false, epsAbs := 0, epsRel := 0, scaling := false } tenthPbm
      (some (fun _ => 5, fun _ => 0)) 10 = .ok sol ∧
    sol.code = .optimal ∧ ¬ ApproxKKT tenthPbm 0 0 sol.primal sol.dual := by
  obtain ⟨sol, h, h'⟩ := Out.test_iff (o := solveQPR (floatArith 52) env1
      { Params.default with polish := false, epsAbs := 0, epsRel := 0, scaling := false } tenthPbm (some (fun _ => 5, fun _ => 0)) 10)
    (f := fun sol => decide (sol.code = .optimal ∧ sol.primal 0 = 5 ∧ sol.dual 0 = 0)) (by decide +kernel)
  obtain ⟨hc, hx, hy⟩ := of_decide_eq_true h'
  refine ⟨sol, h, hc, ?_⟩
  rintro ⟨z, rp, rd, -, -, -, -, ⟨a, b, c, -, -, -, hrd⟩, hd⟩
  have h0 := hd 0
  simp [tenthPbm, Matrix.mulVec, dotProduct, hx, hy] at h0 hrd
  rw [hrd] at h0
  norm_num at h0

end Verif.QP
