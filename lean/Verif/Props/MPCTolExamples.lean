import Verif.Props.MPCTol
import Verif.Props.MPCErrorExamples
import Verif.Props.OCPQPLieTolExamples

/-! # Concrete situations (C141) -/

set_option linter.unusedSectionVars false

namespace Verif.MPC

open Verif.Mesh Verif.Sparse Verif.MeshFn Verif.NLP Verif.OQP Verif.QPSpec Verif.Lie Verif.Flatten
open Verif.QP (Ext Status UpperOnly)
open scoped Matrix

/-- The velocity of the error of `x' = u` along `x = t / 2`, `u = 1 / 2` is the deviation of the input. -/
theorem ex_vel (t : ℝ) (i : ℕ) (k : Fin 1) : velAt exSys (exArgs false) (fun t _ => t / 2) (fun _ _ => 1 / 2) (fun _ _ => 1 / 2) t i k = fun δ => 0 + δ (.u 0) := by
  funext δ
  obtain rfl : k = 0 := Subsingleton.elim _ _
  simp [velAt, errVel, near, exSys, vecSys, vec, exArgs]

theorem ex_run (t : ℝ) (i : ℕ) (k : Fin 1) : runAt exSys (exArgs false) (fun t _ => t / 2) (fun _ _ => 1 / 2) t i k = fun δ => 0 + δ (.u 0) := by
  funext δ
  obtain rfl : k = 0 := Subsingleton.elim _ _
  simp [runAt, near, exSys, vecSys, vec, exArgs]

/-- `mpc_optimal_near`: following `x = t / 2` with `u = 1 / 2`, from every state at every time there is a call that reports Optimal; its deviations `x₀`, `x₁`, `d` satisfy
`x₁ - x₀ = d`, `x₀ = x - t / 2` and `-1 ≤ d ≤ 1`, all up to the tolerance. -/
theorem ex_near (t : ℝ) (x : Fin 1 → ℝ) : ∃ e0 : ℝ, 0 < e0 ∧ ∀ e, 0 < e → e ≤ e0 →
    ∃ (w : World ℝ ℝ (QState ℝ) (Fin 1 → ℝ) (Fin 1 → ℝ) 1 1 1) (N : ℕ) (w' : World ℝ ℝ (QState ℝ) (Fin 1 → ℝ) (Fin 1 → ℝ) 1 1 1) (r : Out (Fin 1 → ℝ) (Fin 1 → ℝ)) (x0 x1 d : ℝ),
      (∀ fuel', N ≤ fuel' → w.step (exSys.withSolver (qpObject QP.realEnv (tight e) fuel')) (.call 0 t x) = some (w', some r)) ∧ r.code = .optimal ∧
      r.u 0 = 1 / 2 + d ∧ |x1 - x0 - d| ≤ e ∧ |x0 - (x 0 - t / 2)| ≤ e ∧ -1 - e ≤ d ∧ d ≤ 1 + e := by
  obtain ⟨C, e0, z, -, he0, h⟩ := mpc_small_tolerances_solve exSys le_rfl (exArgs false) exSys_isLie (exF_ufn false) (exCr_ufn false)
    (fun K a b => lowEnv_lgr K a b) lowEnv_lagrange (by norm_num [exArgs]) le_rfl (fun t _ => t / 2) (fun _ _ => 1 / 2) (fun _ _ => 1 / 2) t x (ex_robust _ _ _ _ _)
  refine ⟨e0, he0, fun e h1 h2 => ?_⟩
  obtain ⟨w, hw, hF, -⟩ := real_set (tight e) 3
  obtain ⟨N, w', r, h3, h4, -⟩ := h QP.realEnv (tight e) 3 _ w 0 (tight_solves h1) rfl rfl rfl rfl h2 h2 h2 hw hF
  obtain ⟨s, z, rp, p, v, ζ, -, -, -, -, -, hT, hu, hN, hM⟩ := mpc_optimal_near exSys (exArgs false) exSys_isLie (exF_ufn false) (exCr_ufn false)
    (tight_solves h1).upper (tight_solves h1).sqrt (tight_solves h1).rho rfl _ w hw 0 _ _ _ hF t x w' r (h3 N le_rfl) h4
  have hrp : rp = e := by
    obtain ⟨n1, n2, n3, -, -, -, hq⟩ := hT
    rw [hq]
    simp [tight]
  subst hrp
  have hn : nColloc (meshOf (exArgs false)) = 1 := by rw [exMeshOf]; rfl
  have h0 : 0 < nColloc (meshOf (exArgs false)) := by omega
  have m := hM 0 ‖z‖ le_rfl (by norm_num [exArgs]) le_rfl (fun i k => by rw [ex_vel]; exact bent_coord _ _ le_rfl _) (fun i k => by rw [ex_run]; exact bent_coord _ _ le_rfl _)
  have m1 := m.dynamics ⟨0, h0⟩ 0
  have m2 := m.running ⟨0, h0⟩ 0
  have m3 := hN.initial 0
  simp only [ex_vel] at m1
  simp only [ex_run] at m2
  refine ⟨w, N, w', r, z (.x 0 0), z (.x ⟨1, by omega⟩ 0), z (.u ⟨0, h0⟩ 0), h3, h4, ?_, ?_, ?_, ?_⟩
  · rw [hu h0]
    simp [exSys, vecSys, vec, duAt]
  · have e : slope exSys.env (spans 1 (meshOf (exArgs false))) = slope (lowEnv ℝ) (spans 1 [⟨1, 0⟩]) := by rw [exMeshOf]; rfl
    rw [e, slope_one, dif_pos (by omega), dif_pos (by omega)] at m1
    simp [exArgs, stepAt, pt, duAt] at m1
    exact m1
  · have : z (.x 0 0) - (x 0 - t / 2) = z (.x 0 0) + (t / 2 - x 0) := by ring
    rw [this]
    simpa [exSys, vecSys, vec] using m3
  · simp [WithinTol, lower, upper, exArgs, stepAt, pt, duAt] at m2
    exact ⟨sub_le_iff_le_add.2 m2.1, m2.2⟩

/-- The same with constraints that see the time. -/
theorem ex_robust_timed (xd : ℝ → Fin 1 → ℝ) (dxd : ℝ → Fin 1 → ℝ) (ud : ℝ → Fin 1 → ℝ) (t : ℝ) (x : Fin 1 → ℝ) : Robust exSys (exArgs true) xd dxd ud t x := by
  refine ⟨1, one_pos, fun r c s _ _ _ => ?_⟩
  have hN : nColloc (meshOf (exArgs true)) = 1 := by rw [exMeshOf]; rfl
  have h0 : 0 < nColloc (meshOf (exArgs true)) := by omega
  set τ := nodeTime exSys (meshOf (exArgs true)) (exArgs true).tf t 0 with hτ
  refine ⟨fun v => match v with
    | .x j _ => -exSys.rminus (xd (exSys.plus t 0)) x 0 + c 0 + if (j : ℕ) = 0 then 0 else (-dxd τ 0 - s ⟨0, h0⟩ 0) + r ⟨0, h0⟩ 0
    | .u _ _ => -s ⟨0, h0⟩ 0 - ud τ 0, fun i k => ?_, ?_, fun i k => ?_⟩
  · obtain rfl : i = ⟨0, h0⟩ := Fin.ext (by have := i.2; simp only; omega)
    obtain rfl : k = 0 := Subsingleton.elim _ _
    rw [errVel_sum exSys_isLie (exF_ufn true)]
    simp only
    rw [← hτ]
    have e : slope exSys.env (spans 1 (meshOf (exArgs true))) = slope (lowEnv ℝ) (spans 1 [⟨1, 0⟩]) := by rw [exMeshOf]; rfl
    rw [e, slope_one, dif_pos (by omega), dif_pos (by omega)]
    simp [exArgs, exSys, vecSys, vec, OQP.dev]
    ring
  · funext k
    obtain rfl : k = 0 := Subsingleton.elim _ _
    simp
  · obtain rfl : i = ⟨0, h0⟩ := Fin.ext (by have := i.2; simp only; omega)
    obtain rfl : k = 0 := Subsingleton.elim _ _
    rw [if_pos (by simp [exArgs]), expand_input]
    simp only
    rw [← hτ]
    simp [Within, exArgs, OQP.dev, lower, upper]

/-- `mpc_optimal_affine`: `-1 ≤ u ≤ 1` as a constraint that sees the time. From every state at every time the input returned lies within the bounds up to the tolerance. -/
theorem ex_affine (t : ℝ) (x : Fin 1 → ℝ) : ∃ e0 : ℝ, 0 < e0 ∧ ∀ e, 0 < e → e ≤ e0 →
    ∃ (w : World ℝ ℝ (QState ℝ) (Fin 1 → ℝ) (Fin 1 → ℝ) 1 1 1) (N : ℕ) (w' : World ℝ ℝ (QState ℝ) (Fin 1 → ℝ) (Fin 1 → ℝ) 1 1 1) (r : Out (Fin 1 → ℝ) (Fin 1 → ℝ)),
      (∀ fuel', N ≤ fuel' → w.step (exSys.withSolver (qpObject QP.realEnv (tight e) fuel')) (.call 0 t x) = some (w', some r)) ∧ r.code = .optimal ∧
      -1 - e ≤ r.u 0 ∧ r.u 0 ≤ 1 + e := by
  obtain ⟨C, e0, z, -, he0, h⟩ := mpc_small_tolerances_solve exSys le_rfl (exArgs true) exSys_isLie (exF_ufn true) (exCr_ufn true)
    (fun K a b => lowEnv_lgr K a b) lowEnv_lagrange (by norm_num [exArgs]) le_rfl (fun t _ => t / 2) (fun _ _ => 1 / 2) (fun _ _ => 1 / 2) t x (ex_robust_timed _ _ _ _ _)
  refine ⟨e0, he0, fun e h1 h2 => ?_⟩
  obtain ⟨w, hw, hF, -⟩ := real_set (tight e) 3 true
  obtain ⟨N, w', r, h3, h4, -⟩ := h QP.realEnv (tight e) 3 _ w 0 (tight_solves h1) rfl rfl rfl rfl h2 h2 h2 hw hF
  have h0 : 0 < nColloc (meshOf (exArgs true)) := by rw [exMeshOf]; exact one_pos
  obtain ⟨d, -, hd⟩ := mpc_optimal_affine exSys (exArgs true) exSys_isLie (exF_ufn true) (exCr_ufn true) (exCr_affine true) rfl le_rfl (fun K a b => lowEnv_lgr K a b) h0
    (tight_solves h1).upper (tight_solves h1).sqrt (tight_solves h1).rho rfl rfl _ w hw 0 _ _ _ hF t x w' r (h3 N le_rfl) h4
  have m := hd 0
  simp [WithinTol, lower, upper, exArgs, tight] at m
  exact ⟨w, N, w', r, h3, h4, sub_le_iff_le_add.2 m.1, m.2⟩

end Verif.MPC
