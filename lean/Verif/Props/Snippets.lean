import Verif.Spec.Snippets
import Verif.Props.VehicleMPC
import Verif.Props.EKF
import Verif.Props.PID
import Verif.Props.ASIFAlways
import Verif.Props.MPCOnDesired
import Verif.Props.MPCRun
import Verif.Props.MPCWeights

/-! # The snippets (C131) -/

set_option linter.unusedSectionVars false

namespace Verif.Snippets

open scoped Matrix
open Verif.Lie Verif.EKF
open Verif.QP (Ext Status)
open Verif.Vehicle (Parts VelPart AdPart PosPart)

/-! ## The filter -/

section

variable {X F : Type*} [Field F] [LinearOrder F] [IsStrictOrderedRing F] {L : LieOps X F 6} {P : Parts X F}

/-- The dynamics are those of the vehicle. -/
theorem sigma_eq (x : X) (u : Fin 2 → F) : sigma P x u = ![P.vel x 0, P.vel x 1, P.vel x 2, -(1 / 5) * P.vel x 0 + u 0, 0, -(2 / 5) * P.vel x 2 + u 1] := by
  have e : (A *ᵥ P.vel x + B *ᵥ u : Fin 3 → F) = ![-(1 / 5) * P.vel x 0 + u 0, 0, -(2 / 5) * P.vel x 2 + u 1] := by
    funext k
    fin_cases k <;> simp [A, B, Matrix.mulVec, dotProduct, Fin.sum_univ_succ]
  unfold sigma
  rw [e]
  funext k
  fin_cases k <;> rfl

theorem ad_rest (h : AdPart L) (a : Fin 6 → F) (h0 : a 0 = 0) (h1 : a 1 = 0) (h2 : a 2 = 0) : L.ad a = 0 := by
  ext i j
  have := congrFun (h a (Pi.single j 1)) i
  rw [Matrix.mulVec_single_one] at this
  refine this.trans ?_
  simp only [h0, h1, h2]
  fin_cases i <;> simp

theorem sum_six (f : Fin 6 → F) : ∑ i, f i = f 0 + f 1 + f 2 + f 3 + f 4 + f 5 := Fin.sum_univ_six f

theorem prior_symm : (prior : Matrix (Fin 6) (Fin 6) F) = symU prior := by
  ext i j
  fin_cases i <;> fin_cases j <;> rfl

/-- The prediction. -/
theorem predict_rest (hL : VelPart L P) (had : AdPart L) (one : X) (h1 : AtRest P one) (solve : {m : ℕ} → Mat m m F → Mat m 6 F → Mat m 6 F) (u : Fin 2 → F) (fuel : ℕ) :
    predict (ekfEnv L one solve) (closed P u) 1 1 none (fuel + 1) (init (ekfEnv L one solve)) = some ⟨L.rplus one ![0, 0, 0, u 0, 0, u 1], prior⟩ := by
  have es : sigma P one u = ![0, 0, 0, u 0, 0, u 1] := by
    rw [sigma_eq, h1.1]
    funext k
    fin_cases k <;> simp
  have ea : L.ad (sigma P one u) = 0 := ad_rest had _ (by rw [es]; rfl) (by rw [es]; rfl) (by rw [es]; rfl)
  rw [es] at ea
  have hloop : predictLoop (ekfEnv L one solve) (closed P u) (1 : Matrix (Fin 6) (Fin 6) F) 1 (Option.getD none (2 * 1)) (fuel + 1) 0 (init (ekfEnv L one solve)) =
      some (0, init (ekfEnv L one solve)) := by
    rw [predictLoop, if_neg (by norm_num)]
  unfold predict
  rw [hloop]
  simp only [odeStep, doStep, init, ekfEnv, Tableau.euler, slopes, combine, covRhs, closed, ea, es]
  congr 1
  congr 1
  · congr 1
    simp
  · ext i j
    fin_cases i <;> fin_cases j <;> simp [prior, symU, sigmaX, Matrix.one_apply] <;> norm_num

/-- The derivative of the sighting from the origin. -/
def sight : Matrix (Fin 2) (Fin 6) F := !![-1, 0, 1, 0, 0, 0; 0, -1, -1, 0, 0, 0]

/-- The sighting from the origin. -/
theorem seen_rest (x : X) (hp : P.pos x = 0) (hr : P.rot x = 1) : seen P x = ![1, 1] ∧ seenJac P x = sight := by
  have e : seen P x = ![1, 1] := by
    unfold seen
    rw [hp, hr, Matrix.transpose_one, Matrix.one_mulVec]
    funext k
    fin_cases k <;> simp
  refine ⟨e, ?_⟩
  unfold seenJac
  rw [e]
  rfl

theorem gain {solve : {m : ℕ} → Mat m m F → Mat m 6 F → Mat m 6 F} {one : X} (hs : SolveOk (ekfEnv L one solve)) :
    solve (symU ((sight : Matrix (Fin 2) (Fin 6) F) * symU prior * sightᵀ + (1 : Matrix (Fin 2) (Fin 2) F)))
      (sight * prior) =
      !![-10 / 21, -4 / 21, 2 / 7, -5 / 21, -2 / 21, 1 / 7; -4 / 21, -10 / 21, -2 / 7, -2 / 21, -5 / 21, -1 / 7] := by
  have e1 : symU ((sight : Matrix (Fin 2) (Fin 6) F) * symU prior * sightᵀ + (1 : Matrix (Fin 2) (Fin 2) F)) = !![5, -2; -2, 5] := by
    rw [← prior_symm]
    ext i j
    fin_cases i <;> fin_cases j <;> simp [prior, sight, symU, Matrix.mul_apply, Matrix.vecMul, dotProduct, Fin.sum_univ_succ, Matrix.one_apply] <;> norm_num
  have e2 : ((sight : Matrix (Fin 2) (Fin 6) F) * prior : Matrix (Fin 2) (Fin 6) F) = !![-2, 0, 2, -1, 0, 1; 0, -2, -2, 0, -1, -1] := by
    ext i j
    fin_cases i <;> fin_cases j <;> simp [prior, sight, Matrix.mul_apply, Fin.sum_univ_succ]
  rw [e1, e2]
  have h : (!![5, -2; -2, 5] : Matrix (Fin 2) (Fin 2) F) * solve !![5, -2; -2, 5] !![-2, 0, 2, -1, 0, 1; 0, -2, -2, 0, -1, -1] = !![-2, 0, 2, -1, 0, 1; 0, -2, -2, 0, -1, -1] :=
    hs (m := 2) _ _ (by rw [Matrix.det_fin_two_of]; norm_num)
  have hi : (!![5 / 21, 2 / 21; 2 / 21, 5 / 21] : Matrix (Fin 2) (Fin 2) F) * !![5, -2; -2, 5] = 1 := by
    ext i j
    fin_cases i <;> fin_cases j <;> simp [Matrix.mul_apply, Fin.sum_univ_succ] <;> norm_num
  have h2 := congrArg (fun M => (!![5 / 21, 2 / 21; 2 / 21, 5 / 21] : Matrix (Fin 2) (Fin 2) F) * M) h
  simp only [← Matrix.mul_assoc, hi, Matrix.one_mul] at h2
  rw [h2]
  ext i j
  fin_cases i <;> fin_cases j <;> simp [Matrix.mul_apply, Fin.sum_univ_succ] <;> norm_num

/-- **C131, the filter.** For every drawn input the snippet ends: the estimate is the predicted state, corrected by the same displacement for all inputs, and the covariance is
`posterior`. -/
theorem ekf_snippet (hL : VelPart L P) (had : AdPart L) (hst : StillPart L P) (one : X) (h1 : AtRest P one) (solve : {m : ℕ} → Mat m m F → Mat m 6 F → Mat m 6 F)
    (hs : SolveOk (ekfEnv L one solve)) (u : Fin 2 → F) (fuel : ℕ) (hf : 1 ≤ fuel) :
    ekfSnippet L P one solve u fuel = some ⟨L.rplus (L.rplus one ![0, 0, 0, u 0, 0, u 1]) correction, posterior⟩ := by
  obtain ⟨fuel, rfl⟩ : ∃ k, fuel = k + 1 := ⟨fuel - 1, by omega⟩
  have hp := predict_rest (L := L) hL had one h1 solve u fuel
  obtain ⟨k1, k2⟩ := hst one ![0, 0, 0, u 0, 0, u 1] rfl rfl rfl
  obtain ⟨k3, k4⟩ := seen_rest (P := P) (L.rplus one ![0, 0, 0, u 0, 0, u 1]) (k1.trans h1.2.1) (k2.trans h1.2.2)
  have hg := gain hs
  have hu : update (ekfEnv L one solve) (landmark P) (1 : Matrix (Fin 2) (Fin 2) F) ⟨L.rplus one ![0, 0, 0, u 0, 0, u 1], prior⟩ =
      ⟨L.rplus (L.rplus one ![0, 0, 0, u 0, 0, u 1]) correction, posterior⟩ := by
    have e : ∀ x : X, update (ekfEnv L one solve) (landmark P) (1 : Matrix (Fin 2) (Fin 2) F) ⟨x, prior⟩ =
        ⟨L.rplus x ((solve (symU (seenJac P x * symU prior * (seenJac P x)ᵀ + (1 : Matrix (Fin 2) (Fin 2) F))) (seenJac P x * prior))ᵀ *ᵥ (![3 / 10, 6 / 10] - seen P x)),
          symU ((1 - (solve (symU (seenJac P x * symU prior * (seenJac P x)ᵀ + (1 : Matrix (Fin 2) (Fin 2) F))) (seenJac P x * prior))ᵀ * seenJac P x) * prior)⟩ := fun _ => rfl
    rw [e, k3, k4, hg]
    congr 1
    · congr 1
      funext k
      fin_cases k <;> simp [correction, Matrix.mulVec, dotProduct, Fin.sum_univ_succ] <;> norm_num
    · ext i j
      fin_cases i <;> fin_cases j <;>
        simp [prior, posterior, sight, symU, Matrix.mul_apply, Fin.sum_univ_six, Fin.sum_univ_two, Matrix.sub_apply, Matrix.one_apply] <;> norm_num
  unfold ekfSnippet
  simp only [EKF.run, EKF.step, hp, Option.bind_some, hu]

/-- The estimated velocity: the drawn input and the correction. -/
theorem ekf_snippet_velocity (hL : VelPart L P) (one : X) (h1 : AtRest P one) (u : Fin 2 → F) :
    P.vel (L.rplus (L.rplus one ![0, 0, 0, u 0, 0, u 1]) correction) = ![u 0 + 43 / 210, 17 / 105, u 1 - 3 / 70] := by
  rw [hL, hL, h1.1]
  funext k
  fin_cases k <;> simp [correction] <;> ring

/-- **C131, the covariance.** It is symmetric and positive definite. -/
theorem posterior_pd : Lin.PD (posterior : Matrix (Fin 6) (Fin 6) F) := by
  refine ⟨by ext i j; fin_cases i <;> fin_cases j <;> rfl, fun v hv => ?_⟩
  have e : v ⬝ᵥ posterior *ᵥ v = 22 / 21 * (v 0 - 4 / 11 * v 1 + 6 / 11 * v 2 + 1 / 2 * v 3 - 2 / 11 * v 4 + 3 / 11 * v 5) ^ 2 +
      10 / 11 * (v 1 - 2 / 5 * v 2 + 1 / 2 * v 4 - 1 / 5 * v 5) ^ 2 + 2 / 5 * (v 2 + 1 / 2 * v 5) ^ 2 + 11 / 10 * v 3 ^ 2 + 3 / 2 * v 4 ^ 2 + 7 / 10 * v 5 ^ 2 := by
    simp only [posterior, dotProduct, Matrix.mulVec, Fin.sum_univ_six]
    simp
    ring
  rw [e]
  by_contra hn
  apply hv
  have k1 := sq_nonneg (v 0 - 4 / 11 * v 1 + 6 / 11 * v 2 + 1 / 2 * v 3 - 2 / 11 * v 4 + 3 / 11 * v 5)
  have k2 := sq_nonneg (v 1 - 2 / 5 * v 2 + 1 / 2 * v 4 - 1 / 5 * v 5)
  have k3 := sq_nonneg (v 2 + 1 / 2 * v 5)
  have k4 := sq_nonneg (v 3)
  have k5 := sq_nonneg (v 4)
  have k6 := sq_nonneg (v 5)
  have z3 : v 3 = 0 := pow_eq_zero_iff two_ne_zero |>.1 (by linarith)
  have z4 : v 4 = 0 := pow_eq_zero_iff two_ne_zero |>.1 (by linarith)
  have z5 : v 5 = 0 := pow_eq_zero_iff two_ne_zero |>.1 (by linarith)
  have z2 : v 2 + 1 / 2 * v 5 = 0 := pow_eq_zero_iff two_ne_zero |>.1 (by linarith)
  have z1 : v 1 - 2 / 5 * v 2 + 1 / 2 * v 4 - 1 / 5 * v 5 = 0 := pow_eq_zero_iff two_ne_zero |>.1 (by linarith)
  have z0 : v 0 - 4 / 11 * v 1 + 6 / 11 * v 2 + 1 / 2 * v 3 - 2 / 11 * v 4 + 3 / 11 * v 5 = 0 := pow_eq_zero_iff two_ne_zero |>.1 (by linarith)
  have y2 : v 2 = 0 := by linarith
  have y1 : v 1 = 0 := by linarith
  funext k
  fin_cases k
  · exact show v 0 = 0 by linarith
  · exact y1
  · exact y2
  · exact z3
  · exact z4
  · exact z5

/-! ## The controller -/

/-- **C131, the controller.** For every drawn state and velocity the input plus the velocity is the displacement from the state to the identity. -/
theorem pid_snippet {G : Type*} (K : LieOps G F 3) (rminus : G → G → Fin 3 → F) (hm : ∀ x y, K.rplus y (rminus x y) = x) (one x : G) (v : Fin 3 → F) :
    pidSnippet rminus one x v = rminus one x - v ∧ K.rplus x (pidSnippet rminus one x v + v) = one := by
  have e : pidSnippet rminus one x v = rminus one x - v := by
    funext k
    simp [pidSnippet, PID.call, PID.step, PID.init, rest, PID.integrate]
    ring
  refine ⟨e, ?_⟩
  rw [e, sub_add_cancel, hm]

end

/-! ## The derivatives -/

section

variable {X : Type*} {L : LieOps X ℝ 6} {P : Parts X ℝ}

/-- **C131, the sighting.** The derivative of the measurement is right. -/
theorem seen_deriv (hp : PosPart L P) (ht : TurnPart L P) (hr : ∀ x, (P.rot x)ᵀ * P.rot x = 1) (h0 : ∀ x, L.rplus x 0 = x) (x : X) (a : Fin 6 → ℝ) (k : Fin 2) :
    HasDerivAt (fun s : ℝ => seen P (L.rplus x (s • a)) k) ((seenJac P x *ᵥ a) k) 0 := by
  have e0 : L.rplus x ((0 : ℝ) • a) = x := by rw [zero_smul, h0]
  have h1 : ∀ k, HasDerivAt (fun s : ℝ => P.rot (L.rplus x (s • a)) 0 k * (1 - P.pos (L.rplus x (s • a)) 0) + P.rot (L.rplus x (s • a)) 1 k * (1 - P.pos (L.rplus x (s • a)) 1))
      ((P.rot x * !![0, -a 2; a 2, 0]) 0 k * (1 - P.pos x 0) + P.rot x 0 k * (0 - (P.rot x *ᵥ ![a 0, a 1]) 0) +
        ((P.rot x * !![0, -a 2; a 2, 0]) 1 k * (1 - P.pos x 1) + P.rot x 1 k * (0 - (P.rot x *ᵥ ![a 0, a 1]) 1))) 0 := fun k => by
    have := ((ht x a 0 k).mul ((hasDerivAt_const (0 : ℝ) (1 : ℝ)).sub (hp x a 0))).add ((ht x a 1 k).mul ((hasDerivAt_const (0 : ℝ) (1 : ℝ)).sub (hp x a 1)))
    refine (this.congr_of_eventuallyEq (Filter.Eventually.of_forall fun s => rfl)).congr_deriv ?_
    simp only [Pi.sub_apply, e0]
  have e : (fun s : ℝ => seen P (L.rplus x (s • a)) k) = fun s : ℝ =>
      P.rot (L.rplus x (s • a)) 0 k * (1 - P.pos (L.rplus x (s • a)) 0) + P.rot (L.rplus x (s • a)) 1 k * (1 - P.pos (L.rplus x (s • a)) 1) := by
    funext s
    simp [seen, Matrix.mulVec, dotProduct, Fin.sum_univ_two]
  rw [e]
  refine (h1 k).congr_deriv ?_
  have g : ∀ i j, P.rot x 0 i * P.rot x 0 j + P.rot x 1 i * P.rot x 1 j = (1 : Matrix (Fin 2) (Fin 2) ℝ) i j := fun i j => by
    have := congrFun (congrFun (hr x) i) j
    simpa [Matrix.mul_apply, Fin.sum_univ_two] using this
  have g00 := g 0 0
  have g01 := g 0 1
  have g11 := g 1 1
  simp at g00 g01 g11
  fin_cases k <;> simp [seenJac, seen, Matrix.mulVec, dotProduct, Fin.sum_univ_two, Fin.sum_univ_six, Matrix.mul_apply]
  · linear_combination -(a 0) * g00 - a 1 * g01
  · linear_combination -(a 0) * g01 - a 1 * g11

/-- **C131, the barrier.** The derivative of the barrier is right. -/
theorem wall_deriv (hp : PosPart L P) (t : ℝ) (x : X) (a : Fin 6 → ℝ) (j) : HasDerivAt (fun s : ℝ => (wall P).h t (L.rplus x (s • a)) j) (((wall P).dx t x *ᵥ a) j) 0 := by
  have e : ((wall P).dx t x *ᵥ a) j = (P.rot x *ᵥ ![a 0, a 1]) 0 := by
    simp [wall, Matrix.mulVec, dotProduct, Fin.sum_univ_six, Fin.sum_univ_two]
  rw [e]
  exact (hp x a 0).sub_const _

/-! ## The safety filter -/

/-- **C131, the safety filter.** For every drawn state the call of the filter returns, with a verdict of the solver. -/
theorem asif_snippet {qenv : (n : ℕ) → QP.Env ℝ n} {qprm : QP.Params ℝ} (hS : MPC.Solves qenv qprm) (hi : qprm.maxIter = none) (ht : qprm.maxTime = none) (x : X) :
    ∃ N r, (∀ fuel, N ≤ fuel → asifSnippet L P (ASIF.withQP (nu := 2) (qenv 3) qprm fuel) fuel x = some r) ∧ MPC.Verdict r.2 := by
  obtain ⟨N, r, h1, -, h2, -⟩ := ASIF.call_always (nu := 2) hS ⟨L.rplus, L.ad, fun u v => u + v, fun u v => u - v⟩ ⟨sigma P, fun _ _ => sigmaU⟩ filterPrm
    (fun _ => zero_le_one) (by norm_num [filterPrm]) (Or.inr (Or.inr (by norm_num [filterPrm]))) _ (ASIF.kept_new _ _) ⟨x, 0, wall P, push⟩ rfl
  exact ⟨N, r.2, fun fuel hf => by unfold asifSnippet; rw [h1 fuel hf, Option.map_some], h2 hi ht⟩

end

/-! ## The predictive controller -/

section

open Verif.MPC Verif.Mesh

variable {X 𝔸 𝔹 : Type*} {P : Parts X ℝ} [NormedRing 𝔸] [NormedAlgebra ℝ 𝔸] [FiniteDimensional ℝ 𝔸] [CompleteSpace 𝔸] [NormedRing 𝔹] [NormedAlgebra ℝ 𝔹]
  [FiniteDimensional ℝ 𝔹] [CompleteSpace 𝔹] {mat : X → 𝔸} {hat : (Fin 6 → ℝ) →ₗ[ℝ] 𝔸} {matU : (Fin 2 → ℝ) → 𝔹} {hatU : (Fin 2 → ℝ) →ₗ[ℝ] 𝔹}
  {sys : Sys ℝ ℝ (QState ℝ) X (Fin 2 → ℝ) 6 2} {env : (n : ℕ) → QP.Env ℝ n} {prm : QP.Params ℝ} {fuel : ℕ}

/-- **C131, the dynamics.** The derivatives of the dynamics and of the constraint are right. -/
theorem snippet_ufn (hv : VelPart sys.LX P) (hu : ∀ u v, sys.LU.rplus u v = u + v) : IsUFn sys (mpcArgs P).f ∧ IsUFn sys (mpcArgs P).cr := by
  have e : (mpcArgs P).f = (Vehicle.args P).f := by
    have : (fun _ : Option ℝ => sigma P) = fun _ => Vehicle.f P := by
      funext _ x u
      exact sigma_eq x u
    unfold mpcArgs Vehicle.args
    simp only [this]
    rfl
  exact ⟨e ▸ Vehicle.f_ufn hv hu, Vehicle.cr_ufn (P := P) hu⟩

/-- The controller before the call. -/
theorem mpc_setup (hs : sys.solver = qpObject env prm fuel) (one : X) : ∃ w, World.run sys (mpcSetup P one) World.empty = some w ∧
    w.Follows 0 (mpcArgs P) (fun _ => one) (fun _ => 0) (fun _ => 0) ∧ w.ColdAt 0 := by
  have hn := (new_sim (sys := sys) hs (mpcArgs P) 0 0).1
  obtain ⟨o, ho⟩ := new_def (sys.withSolver (qpFresh env prm fuel)) (mpcArgs P) (by norm_num [mpcArgs]) (by norm_num) (fun qp s => by simp [Sys.withSolver, qpFresh]) 0 0
  rw [hn] at ho
  obtain ⟨o', ho', -⟩ := Option.map_eq_some_iff.mp ho
  obtain ⟨-, h2, h3, h4, h5, -⟩ := new_ok _ _ _ _ o' ho'
  refine ⟨⟨[{ newX sys with xdes := fun _ => one, dxdes := fun _ => 0 }], [{ newU sys with udes := fun _ => 0 }], [o']⟩, ?_, ?_, ?_⟩
  · simp only [mpcSetup, World.run, World.step, World.empty, List.length_nil, ho', Option.map_some, Option.bind_some, Op.setXRel, Op.setURel]
    simp [h3, h4, relDes]
    exact ⟨⟨rfl, rfl⟩, rfl⟩
  · refine ⟨o', { newX sys with xdes := fun _ => one, dxdes := fun _ => 0 }, { newU sys with udes := fun _ => 0 }, rfl, h2, ?_, ?_, rfl, rfl, rfl⟩
    · rw [h3]; rfl
    · rw [h4]; rfl
  · intro s hw
    unfold World.warm at hw
    simp [h5] at hw

/-- **C131, the predictive controller.** The snippet returns the input 0 exactly, and the code is Optimal. -/
theorem mpc_snippet (hs : sys.solver = qpObject env prm fuel) (hS : SolverOk env prm fuel) (hG : Vehicle.Good sys P mat hat matU hatU)
    (hL : ∀ K, 4 ≤ K → K ≤ 5 → IsLGR sys.env K) (one : X) (h1 : AtRest P one) (hm : sys.rminus one one = 0) : mpcSnippet sys P one = some (0, .optimal) := by
  obtain ⟨w, hw, hF, hc⟩ := mpc_setup (P := P) hs one
  have hon : OnDesired sys (meshOf (mpcArgs P)) (mpcArgs P) (fun _ => one) (fun _ => 0) (fun _ => 0) 0 one := by
    refine ⟨hm, fun i => ?_, fun i k => ?_⟩
    · change sigma P one 0 = 0
      rw [sigma_eq, h1.1]
      funext k
      fin_cases k <;> simp
    · rw [if_neg (by simp [mpcArgs])]
      change Within _ _ (sys.dfltU k)
      rw [hG.dflt]
      fin_cases k <;> simp [Within, QPSpec.lower, QPSpec.upper, mpcArgs]
  obtain ⟨w', r, h2, h3, h4, -⟩ := mpc_on_desired sys hs hS (fun _ => by norm_num) _ w hw 0 (mpcArgs P) hG.lie (snippet_ufn hG.vel hG.flat).1 (snippet_ufn hG.vel hG.flat).2
    hL (by norm_num [mpcArgs]) _ _ _ hF hc 0 one hon
  unfold mpcSnippet
  rw [hw, Option.bind_some, h2]
  simp only [h3, h4]

end

end Verif.Snippets
