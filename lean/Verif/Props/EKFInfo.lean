import Verif.Spec.EKFInfo
import Verif.Props.EKFRepeat

/-! # C144: covariance and collected information on any manifold -/

set_option linter.unusedSectionVars false

namespace Verif.EKF

open Matrix EKFSpec Lin

universe v

variable {G : Type*} {F : Type v} {n : ℕ} [Field F] [LinearOrder F] [IsStrictOrderedRing F]

theorem mirrored_eq {m : ℕ} (R : Mat m m F) : mirrored R = symU R := rfl

/-- The estimates at which the measurements of a list are linearised: those before each update. -/
def estimates (env : Env G F n) : State G F n → List (Reading G F n) → List G
  | _, [] => []
  | s, r :: rs => s.g :: estimates env (update env r.z r.R s) rs

theorem update_cov_info (env : Env G F n) (hs : SolveOk env) (z : Meas G F n) (R : Mat z.m z.m F) (s : State G F n)
    (hP : PSD s.P) (hR : PD (mirrored R)) :
    let M := (z.jac s.g)ᵀ * (mirrored R)⁻¹ * z.jac s.g
    IsUnit (1 + s.P * M).det ∧ PSD (update env z R s).P ∧ (1 + s.P * M) * (update env z R s).P = s.P := by
  intro M
  have hR' : PD (symU R) := hR
  have hu := update_eq env hs z R s hP hR'
  obtain ⟨h1, -⟩ := info_right_inv s.P (z.jac s.g) (symU R) hP hR'
  have hpsd := update_cov_PSD s.P (z.jac s.g) (symU R) hP hR'
  have hP' : (update env z R s).P = (1 - s.P * (z.jac s.g)ᵀ * (innov s.P (z.jac s.g) (symU R))⁻¹ * z.jac s.g) * s.P := by
    rw [show update env z R s = _ from hu]
    exact symU_of_isSymm _ hpsd.1
  refine ⟨Matrix.isUnit_det_of_right_inverse h1, hP' ▸ hpsd, ?_⟩
  rw [hP', ← Matrix.mul_assoc]
  have : (1 + s.P * M) * (1 - s.P * (z.jac s.g)ᵀ * (innov s.P (z.jac s.g) (symU R))⁻¹ * z.jac s.g) = 1 := h1
  rw [this, Matrix.one_mul]

theorem infoAt_psd : ∀ (rs : List (Reading G F n)) (gs : List G), (∀ r ∈ rs, PD (mirrored r.R)) → PSD (infoAt rs gs)
  | [], _, _ => by rw [infoAt]; exact ⟨Matrix.isSymm_zero, fun v => by simp⟩; simp
  | _ :: _, [], _ => by rw [infoAt]; exact ⟨Matrix.isSymm_zero, fun v => by simp⟩; simp
  | r :: rs, g :: gs, h => by
    rw [infoAt]
    refine PSD.add ?_ (infoAt_psd rs gs fun r' hr => h r' (List.mem_cons_of_mem _ hr))
    have := (psd_inv (h r List.mem_cons_self)).congr (r.z.jac g)ᵀ
    rwa [Matrix.transpose_transpose] at this

/-- **C144** On every manifold, after any list of measurements: the updates return, the covariance is positive
semidefinite and determined by the prior and the information collected at the estimates of the run; it is at most the prior,
and at most the inverse of the information (`(Λ w)ᵀ P' (Λ w) ≤ wᵀ Λ w` for every `w`). -/
theorem ekf_information_bound (env : Env G F n) (hs : SolveOk env) (fuel : ℕ) (rs : List (Reading G F n)) :
    ∀ (s : State G F n), PSD s.P → (∀ r ∈ rs, PD (mirrored r.R)) →
    ∃ s', run env fuel s (rs.map fun r => .update r.z r.R) = some s' ∧ PSD s'.P ∧
      IsUnit (1 + s.P * infoAt rs (estimates env s rs)).det ∧ (1 + s.P * infoAt rs (estimates env s rs)) * s'.P = s.P ∧
      (∀ v : Vec n F, v ⬝ᵥ s'.P *ᵥ v ≤ v ⬝ᵥ s.P *ᵥ v) ∧
      ∀ w : Vec n F, (infoAt rs (estimates env s rs) *ᵥ w) ⬝ᵥ s'.P *ᵥ (infoAt rs (estimates env s rs) *ᵥ w)
        ≤ w ⬝ᵥ infoAt rs (estimates env s rs) *ᵥ w := by
  intro s hP hR
  have main : ∃ s', run env fuel s (rs.map fun r => .update r.z r.R) = some s' ∧ PSD s'.P ∧
      IsUnit (1 + s.P * infoAt rs (estimates env s rs)).det ∧ (1 + s.P * infoAt rs (estimates env s rs)) * s'.P = s.P := by
    induction rs generalizing s with
    | nil => exact ⟨s, rfl, hP, by simp [infoAt], by simp [infoAt]⟩
    | cons r rs ih =>
      obtain ⟨a1, a2, a3⟩ := update_cov_info env hs r.z r.R s hP (hR r List.mem_cons_self)
      obtain ⟨s', b0, b1, b2, b3⟩ := ih (update env r.z r.R s) a2 (fun r' hr => hR r' (List.mem_cons_of_mem _ hr))
      refine ⟨s', b0, b1, ?_⟩
      rw [estimates, infoAt]
      set M := (r.z.jac s.g)ᵀ * (mirrored r.R)⁻¹ * r.z.jac s.g
      set I := infoAt rs (estimates env (update env r.z r.R s) rs)
      have hfac : 1 + s.P * (M + I) = (1 + s.P * M) * (1 + (update env r.z r.R s).P * I) := by
        rw [Matrix.mul_add, Matrix.mul_add (1 + s.P * M), Matrix.mul_one, ← Matrix.mul_assoc (1 + s.P * M), a3]
        abel
      rw [hfac, Matrix.det_mul, Matrix.mul_assoc, b3, a3]
      exact ⟨a1.mul b2, rfl⟩
  obtain ⟨s', h0, h1, h2, h3⟩ := main
  have hI := infoAt_psd rs (estimates env s rs) hR
  set I := infoAt rs (estimates env s rs)
  refine ⟨s', h0, h1, h2, h3, post_le_prior hP hI h1 h2 h3, fun w => ?_⟩
  have ha := post_le hP hI.1 h1 h2 h3 (I *ᵥ w)
  have hb := hI.2 (w - s'.P *ᵥ (I *ᵥ w))
  rw [Matrix.mulVec_sub, sub_dotProduct, dotProduct_sub, dotProduct_sub, quad_comm hI.1 w (s'.P *ᵥ (I *ᵥ w)),
    dotProduct_comm (s'.P *ᵥ (I *ᵥ w)) (I *ᵥ w)] at hb
  linarith

/-- **C144** From a positive definite prior: the inverse covariance grows exactly by the collected information. -/
theorem ekf_information_sum (env : Env G F n) (hs : SolveOk env) (fuel : ℕ) (rs : List (Reading G F n)) (s : State G F n)
    (hP : PD s.P) (hR : ∀ r ∈ rs, PD (mirrored r.R)) :
    ∃ s', run env fuel s (rs.map fun r => .update r.z r.R) = some s' ∧ IsUnit s'.P.det ∧
      s'.P⁻¹ = s.P⁻¹ + infoAt rs (estimates env s rs) := by
  obtain ⟨s', h0, -, -, h3, -⟩ := ekf_information_bound env hs fuel rs s hP.psd hR
  have hu := hP.isUnit_det
  have hinv : (s.P⁻¹ + infoAt rs (estimates env s rs)) * s'.P = 1 := by
    have : s.P⁻¹ + infoAt rs (estimates env s rs) = s.P⁻¹ * (1 + s.P * infoAt rs (estimates env s rs)) := by
      rw [Matrix.mul_add, Matrix.mul_one, ← Matrix.mul_assoc, Matrix.nonsing_inv_mul _ hu, Matrix.one_mul]
    rw [this, Matrix.mul_assoc, h3, Matrix.nonsing_inv_mul _ hu]
  exact ⟨s', h0, Matrix.isUnit_det_of_left_inverse hinv, Matrix.inv_eq_left_inv hinv⟩

/-- **C144** Right after an update the variance of every combination of predicted readings is at most that of the sensor,
whatever the manifold, the measurement function, the reading and the prior. -/
theorem ekf_update_sensor_bound (env : Env G F n) (hs : SolveOk env) (z : Meas G F n) (R : Mat z.m z.m F) (s : State G F n)
    (hP : PSD s.P) (hR : PD (mirrored R)) (u : Vec z.m F) :
    u ⬝ᵥ (z.jac s.g * (update env z R s).P * (z.jac s.g)ᵀ) *ᵥ u ≤ u ⬝ᵥ mirrored R *ᵥ u := by
  obtain ⟨a1, a2, a3⟩ := update_cov_info env hs z R s hP hR
  have hsy := isSymm_info_block (z.jac s.g) hR 1
  rw [one_smul] at hsy
  have := sensor_le (z.jac s.g) hR 1 zero_le_one (fun v => by rw [one_smul]; exact post_le hP hsy a2 a1 a3 v) u
  rw [one_mul, Matrix.mulVec_transpose, ← Matrix.dotProduct_mulVec, ← Matrix.mulVec_transpose, Matrix.mulVec_mulVec,
    Matrix.mulVec_mulVec] at this
  exact this

/-! ## A nonlinear sensor -/

/-- A reading of the square of a scalar state, noise variance 3. -/
def squareReading (y : ℚ) : Reading ℚ ℚ 1 :=
  ⟨{ m := 1, Y := ℚ, h := fun g => g * g, jac := fun g => !![2 * g], yminus := fun a b _ => a - b, y := y }, !![3]⟩

theorem square_pd (y : ℚ) : PD (mirrored (squareReading y).R) := by
  have : mirrored (squareReading y).R = (!![3] : Mat 1 1 ℚ) := by
    rw [mirrored_eq]
    exact symU_of_isSymm _ (pd_one_by_one 3 (by norm_num)).1
  rw [this]
  exact pd_one_by_one 3 (by norm_num)

/-- Two readings 4 and 5 from the estimate 1 with variance 1: linearised at 1 and at `1 + 6/7`, so the inverse variance is
`1 + 4/3 + (4/3) (13/7)²`. -/
theorem square_information : ∃ s', run demoEnv 0 { g := 1, P := 1 } ([squareReading 4, squareReading 5].map fun r => .update r.z r.R) = some s' ∧
    s'.P⁻¹ = 1 + infoAt [squareReading 4, squareReading 5] [1, 13 / 7] := by
  have hs : SolveOk demoEnv := by
    intro m S B hS
    show S * (S⁻¹ * B) = B
    rw [← Matrix.mul_assoc, Matrix.mul_nonsing_inv S hS, Matrix.one_mul]
  have hpd : PD (1 : Mat 1 1 ℚ) := by
    have := pd_one_by_one 1 (by norm_num)
    rwa [show (!![1] : Mat 1 1 ℚ) = 1 by ext i j; fin_cases i; fin_cases j; rfl] at this
  obtain ⟨s', h0, -, h2⟩ := ekf_information_sum demoEnv hs 0 [squareReading 4, squareReading 5] { g := 1, P := 1 } hpd
    (by intro r hr; simp only [List.mem_cons, List.not_mem_nil, or_false] at hr; rcases hr with rfl | rfl <;> exact square_pd _)
  refine ⟨s', h0, ?_⟩
  rw [h2, inv_one]
  have hg : (update demoEnv (squareReading 4).z (squareReading 4).R { g := 1, P := 1 }).g = 13 / 7 := by
    rw [update_eq demoEnv hs _ _ _ hpd.psd (square_pd 4)]
    show (1 : ℚ) + (((1 : Mat 1 1 ℚ) * (!![2 * 1] : Mat 1 1 ℚ)ᵀ * (innov (1 : Mat 1 1 ℚ) (!![2 * 1] : Mat 1 1 ℚ) (symU (!![3] : Mat 1 1 ℚ)))⁻¹)
      *ᵥ (fun _ => (4 : ℚ) - 1 * 1)) 0 = 13 / 7
    have hi : innov (1 : Mat 1 1 ℚ) (!![2 * 1] : Mat 1 1 ℚ) (symU (!![3] : Mat 1 1 ℚ)) = !![7] := by
      ext i j
      obtain rfl : i = 0 := Subsingleton.elim _ _
      obtain rfl : j = 0 := Subsingleton.elim _ _
      norm_num [innov, symU, Matrix.mul_apply, Matrix.vecMul, dotProduct]
    have hinv : (!![7] : Mat 1 1 ℚ)⁻¹ = !![1 / 7] := by
      refine Matrix.inv_eq_left_inv ?_
      ext i j
      obtain rfl : i = 0 := Subsingleton.elim _ _
      obtain rfl : j = 0 := Subsingleton.elim _ _
      norm_num [Matrix.mul_apply]
    rw [hi, hinv]
    norm_num [Matrix.mul_apply, Matrix.mulVec, dotProduct]
  rw [estimates, estimates, estimates, hg]

end Verif.EKF
