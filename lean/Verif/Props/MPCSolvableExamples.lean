import Verif.Props.MPCSolvable
import Verif.Props.MPCDouble
import Verif.Props.MPCLieExamples
import Verif.Props.MPCErrorExamples
import Verif.Proofs.LGR

/-! # Controllers whose problems can be solved from every state, and one whose mesh is too coarse (C123) -/

set_option linter.unusedSectionVars false

namespace Verif.MPC

open Verif.Mesh Verif.Sparse Verif.MeshFn Verif.NLP Verif.OQP Verif.QPSpec Verif.Lie Verif.Flatten
open Verif.QP (Ext Status UpperOnly SqrtPos)
open scoped Matrix

attribute [local instance] Matrix.linftyOpNormedRing Matrix.linftyOpNormedAlgebra Matrix.linftyOpNormedSpace Matrix.linftyOpNormedAddCommGroup

/-- The system of the double integrator on the points and weights of the rule with every number of points. -/
noncomputable abbrev diReal : Sys ℝ ℝ (QState ℝ) (Fin 2 → ℝ) (Fin 1 → ℝ) 2 1 := diSys Mesh.realEnv (qpObject QP.realEnv QP.Params.default 0)

theorem di_bounded (xd dxd : ℝ → Fin 2 → ℝ) (ud : ℝ → Fin 1 → ℝ) (t : ℝ) : Bounded diReal diArgs xd dxd ud t (fun _ => 1) (1 / 2) := by
  refine bounded_of (vecSys_isLie 2 1 _ _ _ _) (di_f _ _) fun s τ e => ?_
  have had : ∀ l, diReal.LX.ad (Pi.single l 1) = 0 := fun _ => rfl
  simp only [had, Matrix.zero_mulVec, Pi.zero_apply, mul_zero, add_zero, di_fdx, Fin.sum_univ_two]
  simp
  nlinarith [sq_nonneg (e 0 - e 1)]

theorem di_room (xd : ℝ → Fin 2 → ℝ) (ud : ℝ → Fin 1 → ℝ) (t : ℝ) : InputRoom diReal diArgs xd ud t (1 / 2) := by
  intro i
  refine ⟨0, fun e k s hs => ?_⟩
  rw [if_neg (by simp [diArgs]), expand_sum (vecSys_isLie 2 1 _ _ _ _) (di_cr _ _)]
  rw [abs_le] at hs
  obtain rfl : k = 0 := Subsingleton.elim _ _
  simp [Within, lower, upper, diArgs, vecSys, bothArg]
  exact ⟨by linarith [hs.1], by linarith [hs.2]⟩

/-- `mpc_admissible` with the controller of the example, for every desired trajectory, time and state. -/
example (xd dxd : ℝ → Fin 2 → ℝ) (ud : ℝ → Fin 1 → ℝ) (t : ℝ) (x : Fin 2 → ℝ) : ∃ z, Admissible diReal diArgs xd dxd ud t x z :=
  mpc_admissible diReal diArgs (vecSys_isLie 2 1 _ _ _ _) (di_f _ _) (by simp [diArgs]) (fun K h1 _ => Mesh.realEnv_lgr K (by simp [diArgs] at h1; omega))
    Mesh.realEnv_lagrange (by simp [di_tf]) xd dxd ud t (fun _ => one_pos) (di_bounded xd dxd ud t) (by simp [diArgs]; norm_num)
    (fun i => (di_room xd ud t i).imp fun v hv e k s hs => hv e k s (hs.trans (by norm_num))) x

/-- `mpc_input_limits_solved` with the controller of the example: for every desired trajectory, time and state there is a tolerance with which every call reports Optimal,
whatever calls were made before. -/
example (xd dxd : ℝ → Fin 2 → ℝ) (ud : ℝ → Fin 1 → ℝ) (t : ℝ) (x : Fin 2 → ℝ) : ∃ e0 : ℝ, 0 < e0 ∧ ∀ e, 0 < e → e ≤ e0 →
    ∀ fuel l w i, World.run (diReal.withSolver (qpObject QP.realEnv (tight e) fuel)) l World.empty = some w → w.Follows i diArgs xd dxd ud →
      ∃ N w' r, (∀ fuel', N ≤ fuel' → w.step (diReal.withSolver (qpObject QP.realEnv (tight e) fuel')) (.call i t x) = some (w', some r)) ∧ r.code = .optimal := by
  obtain ⟨C, e0, z, -, he0, h⟩ := mpc_input_limits_solved diReal (by norm_num) diArgs (vecSys_isLie 2 1 _ _ _ _) (di_f _ _) (di_cr _ _) (by simp [diArgs])
    (fun K h1 _ => Mesh.realEnv_lgr K (by simp [diArgs] at h1; omega)) Mesh.realEnv_lagrange (by simp [di_tf]) (by norm_num) xd dxd ud t (fun _ => one_pos)
    (di_bounded xd dxd ud t) (by simp [diArgs]; norm_num) (by norm_num) (di_room xd ud t) x
  refine ⟨e0, he0, fun e h1 h2 fuel l w i hw hF => ?_⟩
  obtain ⟨N, w', r, h3, h4, -⟩ := h QP.realEnv (tight e) fuel l w i (tight_solves h1) rfl rfl rfl rfl h2 h2 h2 hw hF
  exact ⟨N, w', r, h3, h4⟩

/-- On the Heisenberg group, following the velocity `(1, 0, 0)`: the term with `ad` makes errors grow at rate one half. -/
theorem heis_bounded (xd : ℝ → Fin 3 → ℝ) (t : ℝ) : Bounded heisSys heisArgs xd (fun _ => ![1, 0, 0]) (fun _ => 0) t (fun _ => 1) (1 / 2) := by
  refine bounded_of heisSys_isLie heisF_ufn fun s τ e => ?_
  have had : ∀ l, heisSys.LX.ad (Pi.single l 1) = heisAd (Pi.single l 1) := fun _ => rfl
  simp only [had]
  simp [Fin.sum_univ_three, heisArgs, heisAd, Matrix.mulVec, dotProduct, Pi.single_apply]
  nlinarith [sq_nonneg (e 1 + e 2), sq_nonneg (e 1 - e 2), sq_nonneg (e 0)]

theorem heis_room (xd : ℝ → Fin 3 → ℝ) (t : ℝ) : InputRoom heisSys heisArgs xd (fun _ => 0) t 1 := by
  intro i
  refine ⟨0, fun e k s hs => ?_⟩
  rw [if_pos (by simp [heisArgs]), expand_sum heisSys_isLie heisCr_ufn]
  rw [abs_le] at hs
  simp [Within, lower, upper, heisArgs, bothArg]
  exact ⟨by linarith [hs.1], by linarith [hs.2]⟩

/-- `mpc_robust` on the Heisenberg group: from every state, wherever the desired trajectory is. -/
example (xd : ℝ → Fin 3 → ℝ) (t : ℝ) (x : Fin 3 → ℝ) : Robust heisSys heisArgs xd (fun _ => ![1, 0, 0]) (fun _ => 0) t x :=
  ⟨1, one_pos, fun r c s _ _ hs => mpc_robust heisSys heisArgs heisSys_isLie heisF_ufn le_rfl (fun K h1 h2 => lowEnv_lgr K h1 h2) lowEnv_lagrange (by norm_num [heisArgs])
    xd _ _ t (fun _ => one_pos) (heis_bounded xd t) (by norm_num [heisArgs]) (heis_room xd t) x r c s hs⟩

/-! ## A mesh that is too coarse -/

/-- `x' = 3 x + 0 u` over one time unit on one interval with two points. -/
noncomputable def coarse : Args ℝ ℝ (Fin 1 → ℝ) (Fin 1 → ℝ) 1 1 1 where
  f := ⟨false, fun _ x _ _ => 3 * x 0, fun _ _ _ _ _ => 3, fun _ _ _ _ _ => 0⟩
  cr := ⟨false, fun _ _ u _ => u 0, fun _ _ _ _ _ => 0, fun _ _ _ _ _ => 1⟩
  crl _ := .fin (-1)
  cru _ := .fin 1
  K := 2
  tf := 1
  warmstart := true
  Kmesh := 2

theorem coarse_ufn : IsUFn exSys coarse.f := by
  intro t x u k
  refine ((Flatten.hasPd_const 3 (0 : Arg 1 1 → ℝ)).mul ((Flatten.hasPd_const (x 0) (0 : Arg 1 1 → ℝ)).add (Flatten.hasPd_coord (Arg.x 0) 0))).of_eq fun a => ?_
  cases a with
  | x l =>
    obtain rfl : l = 0 := Subsingleton.elim _ _
    simp [coarse]
  | _ => simp [coarse]

theorem coarseMesh : meshOf coarse = [⟨2, 0⟩] := by
  unfold meshOf uniform
  simp [coarse]

theorem slope_two (X : ℕ → ℝ) : MeshFn.slope (lowEnv ℝ) (spans 1 [⟨2, 0⟩]) X 0 = -(5 / 2) * X 0 + 9 / 2 * X 1 - 2 * X 2 ∧
    MeshFn.slope (lowEnv ℝ) (spans 1 [⟨2, 0⟩]) X 1 = -(1 / 2) * X 0 - 3 / 2 * X 1 + 2 * X 2 := by
  have h := fun i => diffmat_poly (lowEnv_lgr 2 (by norm_num) le_rfl) lowEnv_lagrange (zero_lt_one : (0 : ℝ) < 1)
    (Polynomial.C (X 0) + Polynomial.C (-(5 / 2) * X 0 + 9 / 2 * X 1 - 2 * X 2) * Polynomial.X +
      Polynomial.C (3 / 2 * X 0 - 9 / 2 * X 1 + 3 * X 2) * Polynomial.X ^ 2) (by
      refine (Polynomial.natDegree_add_le _ _).trans (max_le ((Polynomial.natDegree_add_le _ _).trans (max_le (by simp) ?_)) ?_)
      · exact (Polynomial.natDegree_C_mul_le _ _).trans (Polynomial.natDegree_X_le.trans (by norm_num))
      · exact (Polynomial.natDegree_C_mul_le _ _).trans (Polynomial.natDegree_X_pow_le 2)) i
  have e0 : Polynomial.eval (toMesh 0 1 (nodeExt (lowEnv ℝ) 2 0)) (Polynomial.C (X 0) + Polynomial.C (-(5 / 2) * X 0 + 9 / 2 * X 1 - 2 * X 2) * Polynomial.X +
      Polynomial.C (3 / 2 * X 0 - 9 / 2 * X 1 + 3 * X 2) * Polynomial.X ^ 2) = X 0 := by
    simp [toMesh, nodeExt, lowEnv]
  have e1 : Polynomial.eval (toMesh 0 1 (nodeExt (lowEnv ℝ) 2 1)) (Polynomial.C (X 0) + Polynomial.C (-(5 / 2) * X 0 + 9 / 2 * X 1 - 2 * X 2) * Polynomial.X +
      Polynomial.C (3 / 2 * X 0 - 9 / 2 * X 1 + 3 * X 2) * Polynomial.X ^ 2) = X 1 := by
    simp [toMesh, nodeExt, lowEnv]
    ring
  have e2 : Polynomial.eval (toMesh 0 1 (nodeExt (lowEnv ℝ) 2 2)) (Polynomial.C (X 0) + Polynomial.C (-(5 / 2) * X 0 + 9 / 2 * X 1 - 2 * X 2) * Polynomial.X +
      Polynomial.C (3 / 2 * X 0 - 9 / 2 * X 1 + 3 * X 2) * Polynomial.X ^ 2) = X 2 := by
    simp [toMesh, nodeExt]
    ring
  have hk : ∀ k : Fin 3, Polynomial.eval (toMesh 0 1 (nodeExt (lowEnv ℝ) 2 k)) (Polynomial.C (X 0) + Polynomial.C (-(5 / 2) * X 0 + 9 / 2 * X 1 - 2 * X 2) * Polynomial.X +
      Polynomial.C (3 / 2 * X 0 - 9 / 2 * X 1 + 3 * X 2) * Polynomial.X ^ 2) = X k := by
    intro k
    fin_cases k
    exacts [e0, e1, e2]
  have key : ∀ (p : ℕ) (hp : p < 2), MeshFn.slope (lowEnv ℝ) (spans 1 [⟨2, 0⟩]) X p = (-(5 / 2) * X 0 + 9 / 2 * X 1 - 2 * X 2) +
      2 * (3 / 2 * X 0 - 9 / 2 * X 1 + 3 * X 2) * toMesh 0 1 ((lowEnv ℝ).node 2 p) := fun p hp => by
    have e3 : MeshFn.slope (lowEnv ℝ) (spans 1 [⟨2, 0⟩]) X p = ∑ k : Fin (2 + 1), diffmat (lowEnv ℝ) 2 0 1 k ⟨p, hp⟩ * X k := by
      simp only [spans, MeshFn.slope]
      rw [dif_pos hp]
    rw [e3]
    refine Eq.trans ?_ ((h ⟨p, hp⟩).trans (by simp; ring))
    simp only [Matrix.vecMul, dotProduct]
    refine Finset.sum_congr rfl fun k _ => ?_
    rw [mul_comm]
    exact congrArg (· * _) (hk k).symm
  constructor
  · rw [key 0 (by norm_num)]
    simp [toMesh, lowEnv]
  · rw [key 1 (by norm_num)]
    simp [toMesh, lowEnv]
    ring

/-- The bound cannot be dropped: here it would have to be below one and is three, and no deviation is admissible from any state but the desired one. -/
example (t x : ℝ) (hx : x ≠ 0) : ¬ ∃ z, Admissible exSys coarse (fun _ => 0) (fun _ => 0) (fun _ => 0) t (fun _ => x) z := by
  rintro ⟨z, ⟨h1, h2⟩, -⟩
  have hN : nColloc (meshOf coarse) = 2 := by rw [coarseMesh]; rfl
  simp only [errVel_sum exSys_isLie coarse_ufn] at h1
  have e : slope exSys.env (spans 1 (meshOf coarse)) = slope (lowEnv ℝ) (spans 1 [⟨2, 0⟩]) := by rw [coarseMesh]; rfl
  have h3 := h1 ⟨0, by omega⟩ 0
  have h4 := h1 ⟨1, by omega⟩ 0
  have h5 := congrFun h2 0
  rw [e] at h3 h4
  simp only [(slope_two _).1] at h3
  simp only [(slope_two _).2] at h4
  rw [dif_pos (by omega), dif_pos (by omega), dif_pos (by omega)] at h3 h4
  have c1 : coarse.tf = 1 := rfl
  have c2 : ∀ t x u k, coarse.f.val t x u k = 3 * x 0 := fun _ _ _ _ => rfl
  have c3 : ∀ t x u k l, coarse.f.dx t x u k l = 3 := fun _ _ _ _ _ => rfl
  have c4 : ∀ t x u k l, coarse.f.du t x u k l = 0 := fun _ _ _ _ _ => rfl
  have c5 : ∀ l, exSys.LX.ad l = 0 := fun _ => rfl
  have c6 : ∀ x y, exSys.rminus x y = x - y := fun _ _ => rfl
  simp [c1, c2, c3, c4, c5, OQP.dev] at h3 h4
  simp [c6] at h5
  have e0 : z (.x 0 0) = x := h5
  apply hx
  linarith

end Verif.MPC
