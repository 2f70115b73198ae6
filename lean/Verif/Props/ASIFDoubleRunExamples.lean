import Verif.Props.ASIFDoubleRun
import Verif.Props.MPCErrorExamples
import Verif.Props.MPCAlwaysExamples

/-! # Cases for the run of examples/asif_doubleintegrator.cpp (C126) -/

namespace Verif.ASIF

open Verif.ASIFSpec
open Verif.QP (Ext Status)
open Verif.MPC (Solves)

/-- The parameters of the solver in the example: the defaults without polishing (54-57). -/
noncomputable def diQP : QP.Params ℝ := { QP.Params.default with polish := false }

theorem diQP_solves : Solves QP.realEnv diQP where
  upper := MPC.real_solves.upper
  sqrt := MPC.real_solves.sqrt
  ldlt := MPC.real_solves.ldlt
  finds := fun n m p hP s hs => QP.realEnv_finds n _ (by norm_num [diQP, QP.Params.default]) (by norm_num [diQP, QP.Params.default]) m p hP s hs
  alpha := MPC.real_solves.alpha
  sigma := MPC.real_solves.sigma
  rho := MPC.real_solves.rho
  epsAbs := MPC.real_solves.epsAbs
  epsRel := MPC.real_solves.epsRel
  epsPrimalInf := MPC.real_solves.epsPrimalInf
  epsDualInf := MPC.real_solves.epsDualInf
  check := MPC.real_solves.check

theorem diQP_usual : DiUsual diQP := ⟨by norm_num [diQP, QP.Params.default], by norm_num [diQP, QP.Params.default], rfl, rfl⟩

/-- **C126, the parameters of the example.** The 200 turns of the example with the parameters as written: they return and every status is Optimal. -/
theorem di_as_written : ∃ N l, (∀ fuel, N ≤ fuel → diLoop (withQP (nu := 1) (QP.realEnv 2) diQP fuel) fuel (fun _ => 1) 200 (Filter.new diDyn diPrm, ![-5, 1]) = some l) ∧
    l.length = 200 ∧ ∀ p ∈ l, p.2 = .optimal :=
  di_run_optimal diQP_solves diQP_usual _ 200 _

/-- Also from outside the limits and for other desired inputs. -/
example : ∃ N l, (∀ fuel, N ≤ fuel → diLoop (withQP (nu := 1) (QP.realEnv 2) diQP fuel) fuel (fun _ => -7) 1000 (Filter.new diDyn diPrm, ![100, 3]) = some l) ∧
    l.length = 1000 ∧ ∀ p ∈ l, p.2 = .optimal :=
  di_run_optimal diQP_solves diQP_usual _ 1000 _

/-- With an exact solver: the run returns and exceeds both limits. -/
example : ∃ l, diLoop best 51 (fun _ => 1) 200 (Filter.new diDyn diPrm, ![-5, 1]) = some l ∧ Exceeds (l.map Prod.fst) := by
  obtain ⟨l, h1, -, h3⟩ := di_loop_runs 200 [] _ rfl ![-5, 1]
  exact ⟨l, h1, di_run_exact best best_exact 51 l h1 h3⟩

/-- With the modelled solver and some positive tolerance. -/
example : ∃ e : ℝ, 0 < e ∧ ∃ N l, (∀ fuel, N ≤ fuel → diLoop (withQP (nu := 1) (QP.realEnv 2) (MPC.tight e) fuel) fuel (fun _ => 1) 200 (Filter.new diDyn diPrm, ![-5, 1]) = some l) ∧
    (∀ p ∈ l, p.2 = .optimal) ∧ Exceeds (l.map Prod.fst) := by
  obtain ⟨ε, hε, h⟩ := di_run_modelled
  have h1 : 0 < min ε (1 / 204) := lt_min hε (by norm_num)
  refine ⟨min ε (1 / 204), h1, h QP.realEnv (MPC.tight _) (MPC.tight_solves h1) ⟨min_le_right _ _, ?_, rfl, rfl⟩ rfl rfl (min_le_left _ _)⟩
  exact lt_of_le_of_lt (min_le_right _ _) (by norm_num)

/-- Far from the limits the desired input is ideal; at rest on the limit it is not. -/
example : Ideal (-5 : ℚ) (1 / 10) 1 ∧ Ideal (3 : ℚ) 0 (1783 / 10000) := by
  constructor
  · refine ⟨0, ⟨by norm_num, le_rfl, le_rfl, fun k hk => ?_, fun k hk => ?_⟩, fun w t _ => by nlinarith [sq_nonneg (w - 1), sq_nonneg t]⟩
    · interval_cases k <;> norm_num
    · interval_cases k <;> norm_num
  · exact (Cert.mk (i := 30) (j := 30) (s := 2739 / 100000) (a := 2739 / 1000) (b := 0) (by norm_num) (by norm_num) (by norm_num) (by decide +kernel) (by norm_num [rowC, rowB])
      (by norm_num [rowC, rowB]) (by norm_num) le_rfl (by norm_num) (by norm_num [rowB])).ideal

end Verif.ASIF
