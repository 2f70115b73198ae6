import Verif.Props.SE2QPMain
import Verif.Props.SE2OcpExamples
import Verif.Props.DoubleIntFeas

/-! # Examples for the program ocp_se2_qp.cpp: poses of the plane with velocities, the rules of `realEnv`, exact square roots and factorisations (C128) -/

namespace Verif.SE2

open Verif.Mesh Verif.Sparse Verif.MeshFn Verif.NLP Verif.Lie Verif.Flatten Verif.OQP Verif.QP Verif.QPSpec Verif.DI

open scoped Matrix Matrix.Norms.Operator

open Classical in
/-- `pvPose` with a logarithm that also holds for states with pose one. -/
noncomputable def planePose : PoseOps PoseVelocity ℝ :=
  { pvPose with log := fun x => if x = pvPose.make 0 (pvPose.vel x) then ![0, 0, 0, pvPose.vel x 0, pvPose.vel x 1] else pvPose.log x }

theorem planePose_isPose : IsPose planePose (fun x : PoseVelocity => ((x : (affine 2 × affine 2)ˣ) : affine 2 × affine 2)) pvHat :=
  ⟨pvPose_isPose.lie, pvPose_isPose.vel, pvPose_isPose.make, pvPose_isPose.make_vel, pvPose_isPose.dlExpinv, pvPose_isPose.drSq, pvPose_isPose.d2rRminus, pvPose_isPose.d2rSq⟩

theorem semi_bracket (a b : Fin (2 + 1) → ℝ) : semiMat so2Hat a * semiMat so2Hat b - semiMat so2Hat b * semiMat so2Hat a =
    semiMat so2Hat ![a 1 * b 2 - a 2 * b 1, a 2 * b 0 - a 0 * b 2, 0] := by
  unfold semiMat
  rw [Matrix.fromBlocks_multiply, Matrix.fromBlocks_multiply]
  ext i j
  rcases i with i | i <;> rcases j with j | j
  · fin_cases i <;> fin_cases j <;> simp [so2Hat, Matrix.mul_apply, Fin.sum_univ_two] <;> ring
  · fin_cases i <;> simp [so2Hat, Matrix.mul_apply, Fin.sum_univ_two, Matrix.vecHead, Matrix.vecTail] <;> ring
  · simp
  · simp

theorem no_bracket (a b : Fin (2 + 0) → ℝ) : semiMat (noHat 2) a * semiMat (noHat 2) b - semiMat (noHat 2) b * semiMat (noHat 2) a = semiMat (noHat 2) 0 := by
  unfold semiMat
  rw [Matrix.fromBlocks_multiply, Matrix.fromBlocks_multiply]
  ext i j
  rcases i with i | i <;> rcases j with j | j <;> simp [noHat]

theorem coe_bracket (A B : affine 2) : ((A * B - B * A : affine 2) : Matrix (Fin 2 ⊕ Unit) (Fin 2 ⊕ Unit) ℝ) = (A : Matrix (Fin 2 ⊕ Unit) (Fin 2 ⊕ Unit) ℝ) * B - B * A := rfl

theorem pvHat_fst (a : Fin 5 → ℝ) : ((pvHat a).1 : Matrix (Fin 2 ⊕ Unit) (Fin 2 ⊕ Unit) ℝ) = semiMat so2Hat ![a 0, a 1, a 2] := by
  change semiMat so2Hat (fun i : Fin (2 + 1) => a (Fin.castAdd (2 + 0) i)) = _
  congr 1
  funext i
  fin_cases i <;> rfl

theorem pvHat_snd (a : Fin 5 → ℝ) : ((pvHat a).2 : Matrix (Fin 2 ⊕ Unit) (Fin 2 ⊕ Unit) ℝ) = semiMat (noHat 2) ![a 3, a 4] := by
  change semiMat (noHat 2) (fun i : Fin (2 + 0) => a (Fin.natAdd (2 + 1) i)) = _
  congr 1
  funext i
  fin_cases i <;> rfl

theorem plane_ad (a b : Fin 5 → ℝ) : pvL.ad a *ᵥ b = ![a 1 * b 2 - a 2 * b 1, a 2 * b 0 - a 0 * b 2, 0, 0, 0] := by
  have h := pose_velocity_isLie.ad a b
  have h1 := congrArg (fun x => (x.1 : Matrix (Fin 2 ⊕ Unit) (Fin 2 ⊕ Unit) ℝ)) h
  have h2 := congrArg (fun x => (x.2 : Matrix (Fin 2 ⊕ Unit) (Fin 2 ⊕ Unit) ℝ)) h
  simp only [Prod.fst_sub, Prod.fst_mul, Prod.snd_sub, Prod.snd_mul] at h1 h2
  rw [coe_bracket, pvHat_fst a, pvHat_fst b, semi_bracket] at h1
  rw [coe_bracket, pvHat_snd a, pvHat_snd b, no_bracket] at h2
  have hw : ∀ c : Fin 5 → ℝ, c = pvL.ad a *ᵥ b → pvHat c = pvHat ![a 1 * b 2 - a 2 * b 1, a 2 * b 0 - a 0 * b 2, 0, 0, 0] := by
    rintro c rfl
    refine Prod.ext (Subtype.ext ?_) (Subtype.ext ?_)
    · rw [pvHat_fst ![a 1 * b 2 - a 2 * b 1, a 2 * b 0 - a 0 * b 2, 0, 0, 0]]
      exact h1
    · rw [pvHat_snd ![a 1 * b 2 - a 2 * b 1, a 2 * b 0 - a 0 * b 2, 0, 0, 0]]
      refine h2.trans ?_
      congr 1
      funext i
      fin_cases i <;> rfl
  exact pvHat_inj (hw _ rfl)

theorem planePose_isPlane : IsPlane planePose where
  ad := plane_ad
  log v := by
    have h : pvPose.vel (pvPose.make 0 v) = v := pvPose_isPose.make_vel 0 v
    classical
    change (if pvPose.make 0 v = pvPose.make 0 (pvPose.vel (pvPose.make 0 v)) then _ else _) = _
    rw [if_pos (by rw [h])]
    change ![0, 0, 0, pvPose.vel (pvPose.make 0 v) 0, pvPose.vel (pvPose.make 0 v) 1] = _
    rw [h]
  self x := by
    change pvLog (((x⁻¹ * x : PoseVelocity) : (affine 2 × affine 2)ˣ) : affine 2 × affine 2) = 0
    rw [inv_mul_cancel]
    have := (Classical.choose_spec (exists_vlog pose_velocity_isLie)).1.self_of_nhds
    rw [map_zero, NormedSpace.exp_zero] at this
    exact this

/-- An exact solver. -/
noncomputable def exactEnv (n : ℕ) : QP.Env ℝ n := ⟨Real.sqrt, 0, exactFactor, 0, fun _ => 0⟩

theorem exactEnv_sqrt (n : ℕ) : SqrtPos (exactEnv n) := fun _ hx => Real.sqrt_pos.2 hx

theorem exactEnv_ldlt (n : ℕ) : LdltOk (exactEnv n) := fun _ _ _ h b => exactFactor_ok h b

/-- With the default parameters, as the example calls the solver. -/
example : ∃ m, qpMesh = some m ∧ ∃ N, ∀ fuel, N ≤ fuel → ∃ code fx fu z, qpMain 1 realEnv planePose (vec ℝ 2) exactEnv Params.default fuel = some (.ok (code, fx, fu)) ∧
    AtNodes planePose (vec ℝ 2) realEnv m fx fu z := by
  obtain ⟨m, hm, N, h⟩ := se2_qp_returns planePose_isPose planePose_isPlane 1 realEnv_lagrange realEnv_search (realEnv_lgr 5 (by norm_num)) (realEnv_lgr 6 (by norm_num)) (vec ℝ 2) exactEnv
    Params.default exactEnv_sqrt exactEnv_ldlt
    (fun n k p hP s hs => exactFactor_ne_none hP hs (by norm_num [Params.default]) fun i => rhoOf_pos (by norm_num [Params.default]) _ _)
    (by norm_num [Params.default]) (by norm_num [Params.default]) (by norm_num [Params.default]) (by norm_num [Params.default]) (by norm_num [Params.default])
    (by norm_num [Params.default]) (by norm_num [Params.default])
  exact ⟨m, hm, N, fun fuel hf => by
    obtain ⟨code, fx, fu, z, h1, h2, -⟩ := h fuel hf
    exact ⟨code, fx, fu, z, h1, h2⟩⟩

/-- With small tolerances, without polishing. -/
example : ∃ m, qpMesh = some m ∧ ∃ C e0 : ℝ, 0 ≤ C ∧ 0 < e0 ∧ ∀ e, 0 < e → e ≤ e0 → ∃ N, ∀ fuel, N ≤ fuel → ∃ fx fu z zb,
    qpMain 1 realEnv planePose (vec ℝ 2) exactEnv { Params.default with epsAbs := e, epsRel := 0, epsPrimalInf := e, epsDualInf := e, polish := false } fuel =
      some (.ok (.optimal, fx, fu)) ∧ AtNodes planePose (vec ℝ 2) realEnv m fx fu z ∧ IsBest realEnv m zb ∧ ∀ v, |z v - zb v| ≤ C * e := by
  obtain ⟨m, hm, C, e0, hC, he0, h⟩ := se2_qp_accurate planePose_isPose planePose_isPlane 1 realEnv_lagrange realEnv_search (realEnv_lgr 5 (by norm_num)) (realEnv_lgr 6 (by norm_num))
    (vec ℝ 2)
  refine ⟨m, hm, C, e0, hC, he0, fun e h0 h1 => ?_⟩
  exact h exactEnv { Params.default with epsAbs := e, epsRel := 0, epsPrimalInf := e, epsDualInf := e, polish := false } exactEnv_sqrt exactEnv_ldlt
    (fun n k p hP s hs => exactFactor_ne_none hP hs (by norm_num [Params.default]) fun i => rhoOf_pos (by norm_num [Params.default]) _ _)
    (by norm_num [Params.default]) (by norm_num [Params.default]) (by norm_num [Params.default]) (by norm_num [Params.default]) (by norm_num [Params.default])
    rfl rfl rfl h0 h1 rfl h1 h0.le h1

/-- The desired motion itself does not regulate: it does not start at rate of turn 0. -/
example (env : Mesh.Env ℝ) (m : Mesh ℝ) : ¬ Regulates env m 0 := fun h => by
  have := congrFun h.start 4
  simp [stateAt] at this

end Verif.SE2
