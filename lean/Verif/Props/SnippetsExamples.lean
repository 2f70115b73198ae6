import Verif.Props.Snippets
import Verif.Props.VehicleExamples
import Verif.Props.MPCSolverExamples

/-! # The group of poses of the plane and velocities meets the assumptions of the snippets (C131) -/

namespace Verif.Snippets

open scoped Matrix Matrix.Norms.Operator
open Verif.Lie Verif.Vehicle Verif.MPC Verif.Mesh

theorem veh_rest : AtRest vehParts (1 : Veh) := ⟨veh_one.1, veh_one.2.1, veh_one.2.2⟩

theorem veh_still : StillPart veh vehParts := by
  intro x a h0 h1 h2
  have e : (vehHat a).1 = 0 := by
    rw [vehHat_fst, h0, h1, h2]
    refine (congrArg (semiHat so2Hat) ?_).trans (map_zero (semiHat so2Hat))
    funext k
    fin_cases k <;> rfl
  have h := fst_rplus veh_isLie x a (by rw [e, mul_zero])
  rw [e, mul_zero, add_zero] at h
  constructor
  · funext k
    exact congrArg (fun A : affine 2 => A.1 (.inl k) (.inr ())) h
  · exact congrArg (fun A : affine 2 => A.1.toBlocks₁₁) h

theorem veh_turn : TurnPart veh vehParts := by
  intro x a i j
  refine (fst_deriv veh_isLie x a ⟨⟨fun A => A.1 (.inl i) (.inl j), fun _ _ => rfl⟩, fun _ _ => rfl⟩).congr_deriv ?_
  change ((vehMat x).1 * (vehHat a).1).1 (.inl i) (.inl j) = _
  rw [vehHat_fst, aff_mul_ll]
  fin_cases j
  · change _ * (semiHat so2Hat _).1 (.inl 0) (.inl 0) + _ * (semiHat so2Hat _).1 (.inl 1) (.inl 0) = _
    rw [se2_00, se2_10]
    simp [vehParts, Matrix.mul_apply, Fin.sum_univ_two, Matrix.toBlocks₁₁]
  · change _ * (semiHat so2Hat _).1 (.inl 0) (.inl 1) + _ * (semiHat so2Hat _).1 (.inl 1) (.inl 1) = _
    rw [se2_01, se2_11]
    simp [vehParts, Matrix.mul_apply, Fin.sum_univ_two, Matrix.toBlocks₁₁]

/-- The filter with exact linear algebra. -/
example (u : Fin 2 → ℝ) : ekfSnippet veh vehParts 1 (fun S B => S⁻¹ * B) u 1 = some ⟨veh.rplus (veh.rplus 1 ![0, 0, 0, u 0, 0, u 1]) correction, posterior⟩ :=
  ekf_snippet veh_vel veh_ad veh_still 1 veh_rest _ (fun S B h => by
    change S * (S⁻¹ * B) = B
    rw [← Matrix.mul_assoc, Matrix.mul_nonsing_inv S h, Matrix.one_mul]) u 1 le_rfl

/-- The derivative of the measurement. -/
example (x : Veh) (a : Fin 6 → ℝ) (k : Fin 2) : HasDerivAt (fun s : ℝ => seen vehParts (veh.rplus x (s • a)) k) ((seenJac vehParts x *ᵥ a) k) 0 :=
  seen_deriv veh_pos veh_turn (fun x => mul_eq_one_comm.1 (veh_rot x)) veh_zero x a k

/-- The filter for safety from every state. -/
example (x : Veh) : ∃ N r, (∀ fuel, N ≤ fuel → asifSnippet veh vehParts (ASIF.withQP (nu := 2) (QP.realEnv 3) QP.Params.default fuel) fuel x = some r) ∧ MPC.Verdict r.2 :=
  asif_snippet real_solves rfl rfl x

/-- The controller in the plane, on translations. -/
example (x v : Fin 3 → ℝ) : pidSnippet (fun a b => a - b) 0 x v = 0 - x - v ∧ (vec ℝ 3).rplus x (pidSnippet (fun a b => a - b) 0 x v + v) = 0 :=
  pid_snippet (vec ℝ 3) _ (fun a b => add_sub_cancel b a) 0 x v

open Classical in
/-- A difference that is zero for equal states. -/
noncomputable def vehDiff (x y : Veh) : Fin 6 → ℝ := if x = y then 0 else vehMinus x y

theorem vehDiff_spec (x y : Veh) : veh.rplus y (vehDiff x y) = x ∧ IsUnit (veh.drExp (vehDiff x y)).det := by
  unfold vehDiff
  split_ifs with h
  · subst h
    refine ⟨veh_zero x, ?_⟩
    rw [veh_isLie.drExp_zero]
    simp
  · exact vehMinus_spec x y

/-- The system of the snippet. -/
noncomputable abbrev snippetSys {σ : Type*} (solver : MPC.Solver ℝ σ) : Sys ℝ ℝ σ Veh (Fin 2 → ℝ) 6 2 := { vehSys solver with rminus := vehDiff }

theorem snippet_good {σ : Type*} (solver : MPC.Solver ℝ σ) : Good (snippetSys solver) vehParts vehMat vehHat (vecMat 2) (vecHat 2) where
  lie := ⟨veh_isLie, vec_isLie 2, (fun h => by cases h), (fun _ _ _ h => by cases h), vehDiff_spec⟩
  vel := veh_vel
  ad := veh_ad
  flat _ _ := rfl
  dflt := rfl

/-- The predictive controller. -/
example (b : Bool) : mpcSnippet (snippetSys (qpObject QP.realEnv { QP.Params.default with polish := b } 3)) vehParts 1 = some (0, .optimal) :=
  mpc_snippet rfl (real_ok b) (snippet_good _) (fun K h _ => realEnv_lgr K (by omega)) 1 veh_rest (by
    change vehDiff 1 1 = 0
    simp [vehDiff])

end Verif.Snippets
