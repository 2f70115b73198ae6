import Verif.Props.VehicleMPC
import Verif.Props.VehicleFilter
import Verif.Props.MPCVec
import Verif.Props.MPCErrorExamples
import Verif.Props.MPCAlwaysExamples
import Verif.Proofs.LGR

/-! # The group of poses of the plane and velocities meets the assumptions on the vehicle (C124, C125) -/

set_option linter.unusedSectionVars false

namespace Verif.Vehicle

open scoped Matrix Matrix.Norms.Operator
open Verif.Lie Verif.QPSpec Verif.MPC Verif.Mesh
open Verif.QP (Ext Status)

section

variable {X 𝔸 𝔹 : Type*} {n : ℕ} [NormedRing 𝔸] [NormedAlgebra ℝ 𝔸] [FiniteDimensional ℝ 𝔸] [CompleteSpace 𝔸]
  [NormedRing 𝔹] [NormedAlgebra ℝ 𝔹] [FiniteDimensional ℝ 𝔹] [CompleteSpace 𝔹] {L : LieOps X ℝ n} {mat : X → 𝔸 × 𝔹} {hat : (Fin n → ℝ) →ₗ[ℝ] 𝔸 × 𝔹}

theorem snd_rplus (h : IsLie L mat hat) (x : X) (a : Fin n → ℝ) (hn : (hat a).2 * (hat a).2 = 0) : (mat (L.rplus x a)).2 = (mat x).2 + (mat x).2 * (hat a).2 := by
  have e : hat a = ((hat a).1, (hat a).2) := rfl
  rw [h.rplus, Prod.snd_mul, e, exp_pair, exp_nilpotent hn, mul_add, mul_one]

theorem fst_rplus (h : IsLie L mat hat) (x : X) (a : Fin n → ℝ) (hn : (hat a).1 * (hat a).1 = 0) : (mat (L.rplus x a)).1 = (mat x).1 + (mat x).1 * (hat a).1 := by
  have e : hat a = ((hat a).1, (hat a).2) := rfl
  rw [h.rplus, Prod.fst_mul, e, exp_pair, exp_nilpotent hn, mul_add, mul_one]

theorem fst_deriv (h : IsLie L mat hat) (x : X) (a : Fin n → ℝ) (ev : 𝔸 →ₗ[ℝ] ℝ) : HasDerivAt (fun s : ℝ => ev (mat (L.rplus x (s • a))).1) (ev ((mat x).1 * (hat a).1)) 0 := by
  have h1 : ∀ s : ℝ, (mat (L.rplus x (s • a))).1 = (mat x).1 * NormedSpace.exp (s • (hat a).1) := fun s => by
    have e : s • hat a = (s • (hat a).1, s • (hat a).2) := rfl
    rw [h.rplus, Prod.fst_mul, map_smul, e, exp_pair]
  have h2 := (exp_line (hat a).1).const_mul (mat x).1
  have h3 := (ev.toContinuousLinearMap.hasFDerivAt (x := (mat x).1 * NormedSpace.exp ((0 : ℝ) • (hat a).1))).comp_hasDerivAt (0 : ℝ) h2
  exact h3.congr_of_eventuallyEq (Filter.Eventually.of_forall fun s => congrArg ev (h1 s))

theorem rplus_mat_zero (h : IsLie L mat hat) (x : X) : mat (L.rplus x 0) = mat x := by
  rw [h.rplus, map_zero, NormedSpace.exp_zero, mul_one]

end

/-- `Bundle<SE2, R^3>` (29-31). -/
noncomputable def Veh : Subgroup (affine 2 × affine 3)ˣ := bundle (semi (SO 2)) (semi ⊥)

noncomputable def vehHat : (Fin (2 + 1 + (3 + 0)) → ℝ) →ₗ[ℝ] affine 2 × affine 3 := bundleHat (semiHat so2Hat) (semiHat (noHat 3))

theorem vehHat_inj : Function.Injective vehHat := bundleHat_inj (semiHat_inj so2Hat_inj) (semiHat_inj noHat_inj)

theorem isLin_veh : IsLin Veh (LinearMap.range vehHat) := isLin_bundle (isLin_semi isLin_SO2) (isLin_semi isLin_no)

noncomputable def veh : LieOps Veh ℝ 6 := lin Veh vehHat vehHat_inj isLin_veh

/-- The matrices of pose and velocity. -/
def vehMat (x : Veh) : affine 2 × affine 3 := ((x : (affine 2 × affine 3)ˣ) : affine 2 × affine 3)

theorem veh_isLie : IsLie veh vehMat (n := 6) vehHat := lin_isLie Veh vehHat vehHat_inj isLin_veh

theorem veh_covered : Covered Veh vehHat := covered_bundle covered_se2 covered_translations

/-- Velocity, position and orientation as entries of the matrices. -/
noncomputable def vehParts : Parts Veh ℝ where
  vel x k := (vehMat x).2.1 (.inl k) (.inr ())
  pos x k := (vehMat x).1.1 (.inl k) (.inr ())
  rot x := (vehMat x).1.1.toBlocks₁₁

theorem vehHat_fst (a : Fin 6 → ℝ) : (vehHat a).1 = semiHat so2Hat (![a 0, a 1, a 2] : Fin 3 → ℝ) := by
  refine congrArg (semiHat so2Hat) ?_
  funext k
  fin_cases k <;> rfl

theorem vehHat_snd (a : Fin 6 → ℝ) : (vehHat a).2 = semiHat (noHat 3) (![a 3, a 4, a 5] : Fin 3 → ℝ) := by
  refine congrArg (semiHat (noHat 3)) ?_
  funext k
  fin_cases k <;> rfl

theorem noHat_mul (a b : Fin 3 → ℝ) : semiHat (noHat 3) a * semiHat (noHat 3) b = 0 := by
  apply Subtype.ext
  change semiMat (noHat 3) a * semiMat (noHat 3) b = 0
  unfold semiMat
  rw [Matrix.fromBlocks_multiply]
  simp [noHat]

theorem veh_vel : VelPart veh vehParts := by
  intro x a
  have h := snd_rplus veh_isLie x a (by rw [vehHat_snd, noHat_mul])
  rw [vehHat_snd] at h
  have h1 : (vehMat x).2.1.toBlocks₁₁ = 1 := congrArg Units.val (Subgroup.mem_bot.1 x.2.2.1)
  funext k
  have h3 := congrArg (fun A : affine 3 => A.1 (.inl k) (.inr ())) h
  refine h3.trans ?_
  change (vehMat x).2.1 (.inl k) (.inr ()) + ((vehMat x).2.1 * semiMat (noHat 3) (![a 3, a 4, a 5] : Fin 3 → ℝ)) (.inl k) (.inr ()) = _
  have h4 : ((vehMat x).2.1 * semiMat (noHat 3) (![a 3, a 4, a 5] : Fin 3 → ℝ)) (.inl k) (.inr ()) = (![a 3, a 4, a 5] : Fin 3 → ℝ) k := by
    rw [Matrix.mul_apply, Fintype.sum_sum_type]
    have h5 : ∀ j, (vehMat x).2.1 (.inl k) (.inl j) = if k = j then 1 else 0 := fun j => (congrFun (congrFun h1 k) j).trans (Matrix.one_apply)
    simp only [h5]
    simp [semiMat]
  rw [h4]
  rfl

theorem veh_ad : AdPart veh := by
  intro a b
  apply vehHat_inj
  refine (veh_isLie.ad a b).trans ?_
  apply Prod.ext
  · change (vehHat a).1 * (vehHat b).1 - (vehHat b).1 * (vehHat a).1 = (vehHat (![-a 2 * b 1 + a 1 * b 2, a 2 * b 0 - a 0 * b 2, 0, 0, 0, 0] : Fin 6 → ℝ)).1
    simp only [vehHat_fst]
    apply Subtype.ext
    change semiMat so2Hat (![a 0, a 1, a 2] : Fin 3 → ℝ) * semiMat so2Hat (![b 0, b 1, b 2] : Fin 3 → ℝ) -
      semiMat so2Hat (![b 0, b 1, b 2] : Fin 3 → ℝ) * semiMat so2Hat (![a 0, a 1, a 2] : Fin 3 → ℝ) =
      semiMat so2Hat (![-a 2 * b 1 + a 1 * b 2, a 2 * b 0 - a 0 * b 2, 0] : Fin 3 → ℝ)
    unfold semiMat
    rw [Matrix.fromBlocks_multiply, Matrix.fromBlocks_multiply, sub_eq_add_neg, Matrix.fromBlocks_neg, Matrix.fromBlocks_add, Matrix.fromBlocks_inj]
    have e0 : Fin.castAdd 1 (0 : Fin 2) = (0 : Fin 3) := rfl
    have e1 : Fin.castAdd 1 (1 : Fin 2) = (1 : Fin 3) := rfl
    have e2 : Fin.natAdd 2 (0 : Fin 1) = (2 : Fin 3) := rfl
    refine ⟨?_, ?_, ?_, ?_⟩
    · ext p q
      fin_cases p <;> fin_cases q <;> simp [so2Hat, Matrix.mul_apply, Fin.sum_univ_succ, e2] <;> ring
    · ext p q
      fin_cases p <;> simp [so2Hat, Matrix.mul_apply, Fin.sum_univ_succ, e0, e1, e2, Matrix.vecHead, Matrix.vecTail] <;> ring
    · simp
    · simp
  · change (vehHat a).2 * (vehHat b).2 - (vehHat b).2 * (vehHat a).2 = (vehHat (![-a 2 * b 1 + a 1 * b 2, a 2 * b 0 - a 0 * b 2, 0, 0, 0, 0] : Fin 6 → ℝ)).2
    simp only [vehHat_snd, noHat_mul]
    rw [sub_zero]
    refine (map_zero (semiHat (noHat 3))).symm.trans (congrArg (semiHat (noHat 3)) ?_)
    funext k
    fin_cases k <;> rfl

theorem veh_zero (x : Veh) : veh.rplus x 0 = x := by
  apply Subtype.ext
  apply Units.ext
  exact rplus_mat_zero veh_isLie x

theorem veh_pos : PosPart veh vehParts := by
  intro x a k
  refine (fst_deriv veh_isLie x a ⟨⟨fun A => A.1 (.inl k) (.inr ()), fun _ _ => rfl⟩, fun _ _ => rfl⟩).congr_deriv ?_
  change ((vehMat x).1 * (vehHat a).1).1 (.inl k) (.inr ()) = _
  rw [vehHat_fst, aff_mul_lr, se2_0, se2_1, se2_2]
  simp [vehParts, Matrix.mulVec, dotProduct, Fin.sum_univ_two, Matrix.toBlocks₁₁]

/-- The difference of states. -/
noncomputable def vehMinus : Veh → Veh → Fin 6 → ℝ := (exists_difference (lin_isLie Veh vehHat vehHat_inj isLin_veh) veh_covered).choose

theorem vehMinus_spec (x y : Veh) : veh.rplus y (vehMinus x y) = x ∧ IsUnit (veh.drExp (vehMinus x y)).det :=
  (exists_difference (lin_isLie Veh vehHat vehHat_inj isLin_veh) veh_covered).choose_spec x y

/-- The system of the example. -/
noncomputable def vehSys {σ : Type*} (solver : MPC.Solver ℝ σ) : Sys ℝ ℝ σ Veh (Fin 2 → ℝ) 6 2 where
  env := Mesh.realEnv
  plus t s := t + s
  t00 := 0
  solver := solver
  LX := veh
  LU := vec ℝ 2
  rminus := vehMinus
  pat _ _ := true
  comm := false
  dfltX := 1
  dfltU := 0

/-- The groups of the example meet all assumptions. -/
theorem veh_good {σ : Type*} (solver : MPC.Solver ℝ σ) : Good (vehSys solver) vehParts vehMat vehHat (vecMat 2) (vecHat 2) where
  lie := ⟨veh_isLie, vec_isLie 2, (fun h => by cases h), (fun _ _ _ h => by cases h), vehMinus_spec⟩
  vel := veh_vel
  ad := veh_ad
  flat _ _ := rfl
  dflt := rfl

theorem veh_rot : RotPart vehParts := by
  intro x
  obtain ⟨h, -⟩ := x.2.1.1
  have h1 : (vehParts.rot x)ᵀ * vehParts.rot x = 1 := (congrArg (· * _) (Matrix.conjTranspose_eq_transpose_of_trivial _).symm).trans h
  exact mul_eq_one_comm.1 h1

theorem veh_one : vehParts.vel 1 = 0 ∧ vehParts.pos 1 = 0 ∧ vehParts.rot 1 = 1 := by
  refine ⟨?_, ?_, ?_⟩
  · funext k
    exact Matrix.one_apply_ne (by simp)
  · funext k
    exact Matrix.one_apply_ne (by simp)
  · ext i j
    exact (Matrix.one_apply (α := ℝ) (i := Sum.inl i) (j := Sum.inl j)).trans (by simp [Matrix.one_apply])

/-- The start of the desired trajectory, but for its pose. -/
noncomputable def vehStart : Veh := veh.rplus 1 ![0, 0, 0, 1, 0, 2 / 5]

theorem vehStart_vel : vehParts.vel vehStart = ![1, 0, 2 / 5] := by
  refine (veh_vel 1 _).trans ?_
  rw [veh_one.1, zero_add]
  funext k
  fin_cases k <;> rfl

/-- The problem of the predictive controller can be met from every state, and its calls are solved. -/
example (t : ℝ) (x : Veh) : ∃ z, Admissible (vehSys (qpObject QP.realEnv QP.Params.default 0)) (args vehParts) (xdes veh vehStart) (fun _ => vdes) (fun _ => 0) t x z :=
  vehicle_admissible (veh_good _) (fun K h _ => realEnv_lgr K (by omega)) realEnv_lagrange vehStart vehStart_vel t x

/-- The gradient of the barrier at the initial state of the example. -/
example (t : ℝ) (a : Fin 6 → ℝ) (j) : HasDerivAt (fun s : ℝ => (safe vehParts Real.sqrt).h t (veh.rplus 1 (s • a)) j) (((safe vehParts Real.sqrt).dx t 1 *ᵥ a) j) 0 := by
  refine safe_deriv veh_pos veh_zero t 1 (fun h => ?_) a j
  have := congrFun h 1
  simp [dir, veh_one.2.1] at this

theorem tight_usual : Usual (tight (1 / 10000)) := ⟨le_rfl, by norm_num [tight], rfl, rfl⟩

/-- The default parameters without polishing, as in the example. -/
example : Usual { QP.Params.default with polish := false } := ⟨by norm_num [QP.Params.default], by norm_num [QP.Params.default], rfl, rfl⟩

/-- The 1200 turns of the example from its initial state. -/
theorem veh_runs : ∃ N out, (∀ fuel, N ≤ fuel → main vehParts Real.sqrt ((vehSys (qpObject QP.realEnv QP.Params.default 0)).withSolver (qpObject QP.realEnv QP.Params.default fuel))
      (ASIF.withQP (nu := 2) (QP.realEnv 3) (tight (1 / 10000)) fuel) fuel vehStart 1 1200 = some out) ∧
    out.length = 1200 ∧ Flow veh vehParts 1 out ∧ ∀ e ∈ out, e.code = .optimal ∧ Moderate vehParts (1 / 10000) e.x ∧ vehParts.vel e.x 1 = 0 := by
  obtain ⟨N, out, h1, h2, h3, h4⟩ := vehicle_runs (sys := vehSys (qpObject QP.realEnv QP.Params.default 0)) veh_vel veh_ad veh_rot (fun K h _ => realEnv_lgr K (by omega)) real_solves
    (tight_solves (e := 1 / 10000) (by norm_num)) tight_usual rfl rfl (by norm_num [tight]) vehStart 1
    (by unfold Moderate; rw [veh_one.1]; norm_num [tight]) (by rw [veh_one.1]; rfl) 1200
  exact ⟨N, out, h1, h2, h3, fun e he => ⟨(h4 e he).1, (h4 e he).2.1, (h4 e he).2.2.1⟩⟩

/-- The speeds in this run, by the theorem for any solver of the filter that is accurate to a tolerance. -/
example : ∃ fuel out, main vehParts Real.sqrt ((vehSys (qpObject QP.realEnv QP.Params.default 0)).withSolver (qpObject QP.realEnv QP.Params.default fuel))
      (ASIF.withQP (nu := 2) (QP.realEnv 3) (tight (1 / 10000)) fuel) fuel vehStart 1 1200 = some out ∧ out.length = 1200 ∧
    ∀ e ∈ out, Moderate vehParts (1 / 10000) e.x := by
  obtain ⟨N, out, h1, h2, -, h4⟩ := veh_runs
  refine ⟨N, out, h1 N le_rfl, h2, fun e he => ?_⟩
  obtain ⟨l1, l2, hl⟩ := List.append_of_mem he
  exact (vehicle_moderate (sys := (vehSys (qpObject QP.realEnv QP.Params.default 0)).withSolver (qpObject QP.realEnv QP.Params.default N)) veh_vel
    (ASIF.withQP_near (qenv := QP.realEnv) (nu := 2) (QP.realEnv_sqrt 3) (tight_solves (e := 1 / 10000) (by norm_num)).rho rfl rfl N) N 1200 vehStart 1
    (by unfold Moderate; rw [veh_one.1]; norm_num [tight]) out (h1 N le_rfl) l1 l2 e hl (fun e' h' => (h4 e' (by rw [hl]; exact List.mem_append_left _ h')).1)).1.1

/-- Tolerances with which the calls of the predictive controller report Optimal. -/
example (t : ℝ) (x : Veh) : ∃ e0 : ℝ, 0 < e0 ∧ ∀ (fuel : ℕ) (l : List (Op ℝ ℝ Veh (Fin 2 → ℝ) 6 2 2)) (w : World ℝ ℝ (QState ℝ) Veh (Fin 2 → ℝ) 6 2 2) (i : ℕ),
    World.run ((vehSys (qpObject QP.realEnv QP.Params.default 0)).withSolver (qpObject QP.realEnv (tight e0) fuel)) l World.empty = some w →
    w.Follows i (args vehParts) (xdes veh vehStart) (fun _ => vdes) (fun _ => 0) →
    ∃ N w' r, (∀ fuel', N ≤ fuel' → w.step ((vehSys (qpObject QP.realEnv QP.Params.default 0)).withSolver (qpObject QP.realEnv (tight e0) fuel')) (.call i t x) =
      some (w', some r)) ∧ r.code = .optimal := by
  obtain ⟨e0, he, h⟩ := vehicle_mpc_solved (veh_good (qpObject QP.realEnv QP.Params.default 0)) (fun K h _ => realEnv_lgr K (by omega)) realEnv_lagrange vehStart vehStart_vel t x
  exact ⟨e0, he, fun fuel l w i hr hf => h QP.realEnv (tight e0) fuel l w i (tight_solves he) rfl rfl rfl rfl le_rfl le_rfl le_rfl hr hf⟩

/-- At the centre of the obstacle the barrier has no gradient in the direction of travel, and the filter uses zero. -/
example : ∃ x : Veh, dir vehParts x = 0 ∧ ∀ t (j), ((safe vehParts Real.sqrt).dx t x *ᵥ ![1, 0, 0, 0, 0, 0]) j = 0 ∧
    ¬ DifferentiableAt ℝ (fun s : ℝ => (safe vehParts Real.sqrt).h t (veh.rplus x (s • ![1, 0, 0, 0, 0, 0])) j) 0 := by
  set x : Veh := veh.rplus 1 ![0, -(23 / 10), 0, 0, 0, 0] with hx
  have h1 : (vehMat x).1 = 1 + (vehHat ![0, -(23 / 10), 0, 0, 0, 0]).1 := by
    have hn : (vehHat ![0, -(23 / 10), 0, 0, 0, 0]).1 * (vehHat ![0, -(23 / 10), 0, 0, 0, 0]).1 = 0 := by
      rw [vehHat_fst]
      apply Subtype.ext
      change semiMat so2Hat _ * semiMat so2Hat _ = 0
      unfold semiMat
      rw [Matrix.fromBlocks_multiply]
      ext i j
      rcases i with i | i <;> rcases j with j | j <;> fin_cases i <;> fin_cases j <;> simp [so2Hat, Matrix.mul_apply, Fin.sum_univ_succ]
    have h2 := fst_rplus veh_isLie 1 (![0, -(23 / 10), 0, 0, 0, 0] : Fin 6 → ℝ) hn
    have h3 : (vehMat 1).1 = 1 := rfl
    rw [h3, one_mul] at h2
    exact h2
  rw [vehHat_fst] at h1
  have hpos : vehParts.pos x = ![0, -(23 / 10)] := by
    funext k
    have h2 : vehParts.pos x k = (1 : Matrix (Fin 2 ⊕ Unit) (Fin 2 ⊕ Unit) ℝ) (.inl k) (.inr ()) + semiMat so2Hat (![0, -(23 / 10), 0] : Fin 3 → ℝ) (.inl k) (.inr ()) :=
      congrArg (fun A : affine 2 => A.1 (.inl k) (.inr ())) h1
    rw [h2, Matrix.one_apply_ne (by simp), zero_add]
    fin_cases k <;> rfl
  have hrot : vehParts.rot x = 1 := by
    ext i j
    have h2 : vehParts.rot x i j = (1 : Matrix (Fin 2 ⊕ Unit) (Fin 2 ⊕ Unit) ℝ) (.inl i) (.inl j) + semiMat so2Hat (![0, -(23 / 10), 0] : Fin 3 → ℝ) (.inl i) (.inl j) :=
      congrArg (fun A : affine 2 => A.1 (.inl i) (.inl j)) h1
    rw [h2]
    fin_cases i <;> fin_cases j <;> simp [semiMat, so2Hat, Matrix.one_apply]
  have hd : dir vehParts x = 0 := by
    funext k
    unfold dir
    rw [hpos, sub_self]
    rfl
  refine ⟨x, hd, fun t j => safe_centre veh_pos veh_zero t x hd _ (fun h => ?_) j⟩
  have := congrFun h 0
  rw [hrot] at this
  simp at this

end Verif.Vehicle
