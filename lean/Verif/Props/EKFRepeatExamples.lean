import Verif.Props.EKFRepeat
import Mathlib.Algebra.BigOperators.Group.List.Lemmas

/-! # C143: a concrete sequence of readings -/

namespace Verif.EKF

open Matrix EKFSpec Lin

/-- A two-dimensional vector-space filter with an exact solver, over the reals. -/
noncomputable def realEnv2 : Env (Vec 2 ℝ) ℝ 2 where
  tab := .euler
  rplus g v := g + v
  ad _ := 0
  default := 0
  solve S B := S⁻¹ * B

theorem realEnv2_solve : SolveOk realEnv2 := by
  intro m S B hS
  show S * (S⁻¹ * B) = B
  rw [← Matrix.mul_assoc, Matrix.mul_nonsing_inv S hS, Matrix.one_mul]

theorem real_pd_one_by_one (r : ℝ) (hr : 0 < r) : PD (!![r] : Mat 1 1 ℝ) := by
  refine ⟨by ext i j; fin_cases i; fin_cases j; rfl, fun v hv => ?_⟩
  have : v 0 ≠ 0 := fun h => hv (by ext i; fin_cases i; exact h)
  have h2 : v ⬝ᵥ (!![r] : Mat 1 1 ℝ) *ᵥ v = r * (v 0 * v 0) := by
    simp [Matrix.mulVec, dotProduct]; ring
  rw [h2]
  exact mul_pos hr (mul_self_pos.2 this)

theorem real_init_pd : PD (init realEnv2).P := by
  refine ⟨Matrix.isSymm_one, fun v hv => ?_⟩
  have : v 0 ≠ 0 ∨ v 1 ≠ 0 := by
    by_contra h
    push Not at h
    exact hv (by ext i; fin_cases i <;> simp [h.1, h.2])
  simp only [init, Matrix.one_mulVec, dotProduct, Fin.sum_univ_two]
  rcases this with h | h
  · nlinarith [mul_self_pos.2 h, mul_self_nonneg (v 1)]
  · nlinarith [mul_self_pos.2 h, mul_self_nonneg (v 0)]

/-- Readings `3 ± 1` of the sum of the coordinates of the true state `(1, 2)`. -/
noncomputable def swing (k : ℕ) : Vec 1 ℝ := ![3 + (-1) ^ k]

theorem swing_exact : ((!![1, 1] : Mat 1 2 ℝ) *ᵥ ![1, 2] + ![0] : Vec 1 ℝ) = ![3] := by
  funext i
  obtain rfl : i = 0 := Subsingleton.elim _ _
  have h : ((!![1, 1] : Mat 1 2 ℝ) *ᵥ ![1, 2]) 0 = 3 := by
    rw [Matrix.mulVec, dotProduct, Fin.sum_univ_two]
    show (1 : ℝ) * 1 + 1 * 2 = 3
    norm_num
  rw [Pi.add_apply, h]
  simp

theorem swing_sum (k : ℕ) : ((((List.range k).map swing).map
    (fun y => y - ((!![1, 1] : Mat 1 2 ℝ) *ᵥ ![1, 2] + ![0]))).sum : Vec 1 ℝ) = ![if Even k then 0 else 1] := by
  induction k with
  | zero => funext i; obtain rfl : i = 0 := Subsingleton.elim _ _; simp
  | succ k ih =>
    rw [List.range_succ, List.map_append, List.map_append, List.sum_append, ih]
    simp only [swing_exact]
    funext i
    obtain rfl : i = 0 := Subsingleton.elim _ _
    by_cases hk : Even k
    · have : ¬ Even (k + 1) := by rw [Nat.even_add_one]; simpa using hk
      norm_num [swing, hk, this]
    · have h1 : Even (k + 1) := by rw [Nat.even_add_one]; exact hk
      have h2 : ((-1 : ℝ)) ^ k = -1 := (Nat.not_even_iff_odd.1 hk).neg_one_pow
      norm_num [swing, hk, h1, h2]

theorem swing_mean (i : Fin 1) : Filter.Tendsto (fun k => meanNoise (!![1, 1] : Mat 1 2 ℝ) ![0] ![1, 2]
    ((List.range k).map swing) i) Filter.atTop (nhds 0) := by
  have h1 : Filter.Tendsto (fun k : ℕ => (1 : ℝ) / k) Filter.atTop (nhds 0) := tendsto_const_div_atTop_nhds_zero_nat _
  refine tendsto_of_tendsto_of_tendsto_of_le_of_le tendsto_const_nhds h1 (fun k => ?_) (fun k => ?_)
  all_goals
    fin_cases i
    simp only [meanNoise, List.length_map, List.length_range, swing_sum]
    by_cases hk : Even k
    · simp [hk]
    · simp [hk]

/-- The filter started at 0 with unit covariance: the predicted sum of coordinates tends to 3, and after `k` readings its
variance is at most `5 / k`. -/
theorem swing_filter :
    Filter.Tendsto (fun k => ((!![1, 1] : Mat 1 2 ℝ) *ᵥ (fuse realEnv2
      (readings !![1, 1] ![0] !![5] ((List.range k).map swing)) (init realEnv2)).g + ![0] : Vec 1 ℝ) 0) Filter.atTop (nhds 3)
    ∧ ∀ k : ℕ, (k : ℝ) * ((!![1, 1] : Mat 1 2 ℝ) * (fuse realEnv2
      (readings !![1, 1] ![0] !![5] ((List.range k).map swing)) (init realEnv2)).P * (!![1, 1] : Mat 1 2 ℝ)ᵀ) 0 0 ≤ 5 := by
  constructor
  · have := ekf_repeat_consistent realEnv2 realEnv2_solve (fun _ _ => rfl) !![1, 1] ![0] (real_pd_one_by_one 5 (by norm_num)) swing
      (init realEnv2) real_init_pd ![1, 2] swing_mean 0
    rw [swing_exact] at this
    exact this
  · intro k
    have := ekf_repeat_variance realEnv2 realEnv2_solve (fun _ _ => rfl) !![1, 1] ![0] (real_pd_one_by_one 5 (by norm_num))
      ((List.range k).map swing) (init realEnv2) real_init_pd.psd (Pi.single 0 1)
    rw [single_one_dotProduct, single_one_dotProduct, Matrix.mulVec_single_one, Matrix.mulVec_single_one, List.length_map,
      List.length_range] at this
    exact this

end Verif.EKF
