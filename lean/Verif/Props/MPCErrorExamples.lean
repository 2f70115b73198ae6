import Verif.Props.MPCError
import Verif.Props.MPCAlwaysExamples

/-! # Concrete situations (C115) -/

set_option linter.unusedSectionVars false

namespace Verif.MPC

open Verif.Mesh Verif.Sparse Verif.MeshFn Verif.NLP Verif.OQP Verif.QPSpec Verif.Lie Verif.Flatten
open Verif.QP (Ext Status UpperOnly)

/-- `x' = u` with `-1 ≤ u ≤ 1`: the problem stays solvable in every situation. -/
theorem ex_robust (xd : ℝ → Fin 1 → ℝ) (dxd : ℝ → Fin 1 → ℝ) (ud : ℝ → Fin 1 → ℝ) (t : ℝ) (x : Fin 1 → ℝ) : Robust exSys (exArgs false) xd dxd ud t x := by
  refine ⟨1, one_pos, fun r c s _ _ _ => ?_⟩
  have hN : nColloc (meshOf (exArgs false)) = 1 := by rw [exMeshOf]; rfl
  have h0 : 0 < nColloc (meshOf (exArgs false)) := by omega
  set τ := nodeTime exSys (meshOf (exArgs false)) (exArgs false).tf t 0 with hτ
  refine ⟨fun v => match v with
    | .x j _ => -exSys.rminus (xd (exSys.plus t 0)) x 0 + c 0 + if (j : ℕ) = 0 then 0 else (ud τ 0 - dxd τ 0 - s ⟨0, h0⟩ 0) + r ⟨0, h0⟩ 0
    | .u _ _ => -s ⟨0, h0⟩ 0, fun i k => ?_, ?_, fun i k => ?_⟩
  · obtain rfl : i = ⟨0, h0⟩ := Fin.ext (by have := i.2; simp only; omega)
    obtain rfl : k = 0 := Subsingleton.elim _ _
    rw [errVel_sum exSys_isLie (exF_ufn false)]
    simp only
    rw [← hτ]
    have e : slope exSys.env (spans 1 (meshOf (exArgs false))) = slope (lowEnv ℝ) (spans 1 [⟨1, 0⟩]) := by rw [exMeshOf]; rfl
    rw [e, slope_one, dif_pos (by omega), dif_pos (by omega)]
    simp [exArgs, exSys, vecSys, vec, OQP.dev]
    ring
  · funext k
    obtain rfl : k = 0 := Subsingleton.elim _ _
    simp
  · obtain rfl : i = ⟨0, h0⟩ := Fin.ext (by have := i.2; simp only; omega)
    obtain rfl : k = 0 := Subsingleton.elim _ _
    rw [if_neg (by simp [exArgs]), expand_input]
    simp [Within, exArgs, exSys, vecSys, OQP.dev, lower, upper]

/-- Parameters as by default, with tolerances `e` and no polishing. -/
noncomputable def tight (e : ℝ) : QP.Params ℝ := { QP.Params.default with epsAbs := e, epsRel := 0, epsPrimalInf := e, epsDualInf := e, polish := false }

theorem tight_solves {e : ℝ} (he : 0 < e) : Solves QP.realEnv (tight e) where
  upper := realEnv_upper
  sqrt := QP.realEnv_sqrt
  ldlt := QP.realEnv_ldlt
  finds := fun n m p hP s hs => QP.realEnv_finds n _ (by norm_num [tight, QP.Params.default]) (by norm_num [tight, QP.Params.default]) m p hP s hs
  alpha := by norm_num [tight, QP.Params.default]
  sigma := by norm_num [tight, QP.Params.default]
  rho := by norm_num [tight, QP.Params.default]
  epsAbs := he
  epsRel := le_rfl
  epsPrimalInf := he
  epsDualInf := he
  check := by norm_num [tight, QP.Params.default]

/-- `mpc_small_tolerances_solve`: following `x = t / 2` with `u = 1 / 2`, every call at every time from every state is answered as closely as wanted. -/
example (t : ℝ) (x : Fin 1 → ℝ) : ∃ (C e0 : ℝ) (z : QVar (nColloc (meshOf (exArgs false))) 1 1 → ℝ), 0 < e0 ∧ ∀ e, 0 < e → e ≤ e0 →
    ∃ (w : World ℝ ℝ (QState ℝ) (Fin 1 → ℝ) (Fin 1 → ℝ) 1 1 1) (N : ℕ) (w' : World ℝ ℝ (QState ℝ) (Fin 1 → ℝ) (Fin 1 → ℝ) 1 1 1) (r : Out (Fin 1 → ℝ) (Fin 1 → ℝ)),
      (∀ fuel', N ≤ fuel' → w.step (exSys.withSolver (qpObject QP.realEnv (tight e) fuel')) (.call 0 t x) = some (w', some r)) ∧ r.code = .optimal ∧
      Best exSys (exArgs false) (fun t _ => t / 2) (fun _ _ => 1 / 2) (fun _ _ => 1 / 2) t x z ∧
      ∃ d : Fin 1 → ℝ, r.u = (fun k => 1 / 2 + d k) ∧ ∀ (h0 : 0 < nColloc (meshOf (exArgs false))) k, |z (.u ⟨0, h0⟩ k) - d k| ≤ C * e := by
  obtain ⟨C, e0, z, -, he0, h⟩ := mpc_small_tolerances_solve exSys le_rfl (exArgs false) exSys_isLie (exF_ufn false) (exCr_ufn false)
    (fun K a b => lowEnv_lgr K a b) lowEnv_lagrange (by norm_num [exArgs]) le_rfl (fun t _ => t / 2) (fun _ _ => 1 / 2) (fun _ _ => 1 / 2) t x (ex_robust _ _ _ _ _)
  refine ⟨C, e0, z, he0, fun e h1 h2 => ?_⟩
  obtain ⟨w, hw, hF, -⟩ := real_set (tight e) 3
  obtain ⟨N, w', r, h3, h4, h5, d, h6, h7⟩ := h QP.realEnv (tight e) 3 _ w 0 (tight_solves h1) rfl rfl rfl rfl h2 h2 h2 hw hF
  exact ⟨w, N, w', r, h3, h4, h5.1, d, h6, h7⟩

end Verif.MPC
