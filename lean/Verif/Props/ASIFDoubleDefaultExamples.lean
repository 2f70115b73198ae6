import Verif.Props.ASIFDoubleDefault
import Verif.Props.ASIFDoubleRunExamples

/-! # Cases for the safety filter example with the default tolerances (C127) -/

namespace Verif.ASIF

open Verif.QP (Status)

/-- **C127, the parameters of the example.** The 200 turns of the example with the parameters as written: every status is Optimal, and the position exceeds its limit. -/
theorem di_as_written_exceeds : ∃ N l, (∀ fuel, N ≤ fuel → diLoop (withQP (nu := 1) (QP.realEnv 2) diQP fuel) fuel (fun _ => 1) 200 (Filter.new diDyn diPrm, ![-5, 1]) = some l) ∧
    l.length = 200 ∧ (∀ p ∈ l, p.2 = .optimal) ∧ ∃ k < 175, ∃ p, l[k]? = some p ∧ diSafe.h 0 p.1 (0 : Fin 2) < 0 :=
  di_run_default diQP_solves diQP_usual rfl (by norm_num [diQP, QP.Params.default]) (by norm_num [diQP, QP.Params.default])

/-- The `float` nearest to 1/1000 is covered. -/
example : (1 / 1000 : ℝ) < 8589935 / 2 ^ 33 ∧ (8589935 / 2 ^ 33 : ℝ) ≤ 1 / 999 := by norm_num

/-- From rest, one unit before the limit. -/
example : ∃ N l, (∀ fuel, N ≤ fuel → diLoop (withQP (nu := 1) (QP.realEnv 2) diQP fuel) fuel (fun _ => 1) 80001 (Filter.new diDyn diPrm, ![2, 0]) = some l) ∧
    (∀ p ∈ l, p.2 = .optimal) ∧ ∃ p ∈ l, diSafe.h 0 p.1 (0 : Fin 2) < 0 := by
  obtain ⟨N, l, a1, a2, a3⟩ := di_run_optimal diQP_solves diQP_usual (fun _ => 1) 80001 ![2, 0]
  refine ⟨N, l, a1, a3, di_loop_exceeds (DiTol.of diQP_solves rfl (by norm_num [diQP, QP.Params.default]) (by norm_num [diQP, QP.Params.default])) 80001 _ (kept_new _ _) ![2, 0] (by norm_num)
    (by norm_num) (by norm_num) l (a1 N le_rfl) a3⟩

/-- At rest on the limit the tolerances still leave an acceleration: the push is 9/100. -/
example : diPush (3 + 0) = 9 / 100 := by
  unfold diPush
  rw [if_pos (by norm_num)]
  norm_num

/-- The lower bounds of the first turn from the start of the example. -/
example : lowStep (-5000000, -4000000) = (-4949500, -3929500) := by decide +kernel

end Verif.ASIF
