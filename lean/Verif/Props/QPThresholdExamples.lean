import Verif.Props.QPThreshold
import Verif.Props.QPDuality
import Verif.Props.QPZero

/-! # Cases that meet the hypotheses of C111 and C112 -/

namespace Verif.QP

open Matrix Verif.QPSpec

/-- `min x² / 2` subject to `-1 ≤ x ≤ 1`. -/
def boxPbm : Pbm ℝ 1 1 := ⟨1, 0, 1, fun _ => .fin (-1), fun _ => .fin 1⟩

theorem boxPbm_psd : Lin.PSD boxPbm.P := by
  refine ⟨by simp [boxPbm], fun v => ?_⟩
  simp only [boxPbm, one_mulVec, dotProduct, Fin.sum_univ_one]
  exact mul_self_nonneg _

theorem boxPbm_kkt : KKT boxPbm 0 0 := by
  refine ⟨fun i => ?_, by simp [boxPbm], fun i => ⟨fun h => absurd h (by simp), fun h => absurd h (by simp)⟩⟩
  simp [boxPbm, lower, upper]

theorem boxPbm_kkt_eq {x y : Fin 1 → ℝ} (h : KKT boxPbm x y) : |x 0| ≤ 1 ∧ y 0 = -x 0 := by
  obtain ⟨hf, hs, -⟩ := h
  have h1 := hf 0
  have h2 := congrFun hs 0
  simp only [boxPbm, lower, upper, one_mulVec, transpose_one, Pi.add_apply, Pi.zero_apply] at h1 h2
  exact ⟨abs_le.2 h1, by linarith⟩

theorem boxPbm_bounded : BoundedSolutions boxPbm ∧ BoundedMultipliers boxPbm := by
  refine ⟨⟨1, fun x y h j => ?_⟩, ⟨1, fun x y h j => ?_⟩⟩
  · rw [Subsingleton.elim j 0]; exact (boxPbm_kkt_eq h).1
  · rw [Subsingleton.elim j 0, (boxPbm_kkt_eq h).2, abs_neg]; exact (boxPbm_kkt_eq h).1

theorem boxPbm_unique (x : Fin 1 → ℝ) (h : Minimiser boxPbm x) : x = 0 := by
  have h1 := h.2 0 boxPbm_kkt.1
  simp only [cost, boxPbm, one_mulVec, dotProduct, Fin.sum_univ_one, Pi.zero_apply, mul_zero, zero_mul, add_zero] at h1
  funext i
  rw [Subsingleton.elim i 0]
  have : x 0 * x 0 = 0 := le_antisymm (by linarith) (mul_self_nonneg _)
  exact mul_self_eq_zero.1 this

/-- Parameters with tolerance `e`. -/
noncomputable def tolPrm (e : ℝ) : Params ℝ := { Params.default with polish := false, epsAbs := e, epsRel := 0, epsPrimalInf := e, epsDualInf := e, maxIter := none, maxTime := none }

/-- The assumptions of `qp_small_tolerances_solve` are met for all small tolerances: the solver comes within `C e` of the minimiser zero. -/
theorem box_solved : ∃ C e0 : ℝ, 0 ≤ C ∧ 0 < e0 ∧ ∀ e, 0 < e → e ≤ e0 → ∃ N, ∀ fuel, N ≤ fuel →
    ∃ sol, solveQP (realEnv 1) (tolPrm e) boxPbm none fuel = .ok sol ∧ sol.code = .optimal ∧ |sol.primal 0| ≤ C * e := by
  obtain ⟨C, e0, hC, he0, h⟩ := qp_small_tolerances_solve boxPbm_psd boxPbm_kkt boxPbm_bounded.1 boxPbm_bounded.2 (i := 0) (by simp [boxPbm]) (by simp [boxPbm])
  refine ⟨C, e0, hC, he0, fun e he hle => ?_⟩
  obtain ⟨N, hN⟩ := h (realEnv 1) (tolPrm e) none (realEnv_sqrt 1) (realEnv_ldlt 1) (fun _ => by simp)
    (realEnv_finds 1 _ (by norm_num [tolPrm, Params.default]) (by norm_num [tolPrm, Params.default]) 1 boxPbm boxPbm_psd) (by norm_num [tolPrm, Params.default])
    (by norm_num [tolPrm, Params.default]) (by norm_num [tolPrm, Params.default]) (by norm_num [tolPrm, Params.default]) (by norm_num [tolPrm, Params.default])
    rfl rfl rfl he hle rfl hle he.le hle
  refine ⟨N, fun fuel hf => ?_⟩
  obtain ⟨sol, h1, h2, x, y, h3, -, h4, -⟩ := hN fuel hf
  refine ⟨sol, h1, h2, ?_⟩
  have := h4 0
  rwa [boxPbm_unique x h3, Pi.zero_apply, zero_sub, abs_neg] at this

/-- The assumptions of `qp_error_bound_unique` are met, with the constant of the matrices: any threshold admits such a run. -/
example : ∃ C : ℝ, ∃ e0 > 0, ∃ (fuel : ℕ) (sol : Sol ℝ 1 1), solveQP (realEnv 1) (tolPrm e0) boxPbm none fuel = .ok sol ∧ sol.code = .optimal ∧
    |(0 : Fin 1 → ℝ) 0 - sol.primal 0| ≤ C * e0 := by
  obtain ⟨C, -, hC⟩ := qp_error_bound_unique boxPbm.P boxPbm.A boxPbm_psd
  obtain ⟨e1, he1, h1⟩ := hC boxPbm.q boxPbm.l boxPbm.u 0 boxPbm_unique
  obtain ⟨C2, e2, -, he2, h2⟩ := box_solved
  obtain ⟨N, hN⟩ := h2 (min e1 e2) (lt_min he1 he2) (min_le_right _ _)
  obtain ⟨sol, h3, h4, -⟩ := hN N le_rfl
  exact ⟨C, min e1 e2, lt_min he1 he2, N, sol, h3, h4, h1 (realEnv 1) (tolPrm (min e1 e2)) none N sol (realEnv_sqrt 1) (by norm_num [tolPrm, Params.default]) rfl
    (lt_min he1 he2).le rfl (min_le_left _ _) h3 h4 0⟩

/-- The assumptions of `qp_error_bound` are met: a run with a positive relative tolerance and a bound of the magnitudes. -/
example : ∃ sol, solveQP env1 { Params.default with polish := false } lpPbm none 10 = .ok sol ∧ sol.code = .optimal ∧ Magnitude lpPbm sol.primal sol.dual 10000 := by
  obtain ⟨sol, h, h'⟩ := Out.test_iff (o := solveQP env1 { Params.default with polish := false } lpPbm none 10)
    (f := fun sol => decide (sol.code = .optimal ∧ |sol.primal 0| ≤ 10000 ∧ |sol.dual 0| ≤ 10000)) (by decide +kernel)
  obtain ⟨h1, h2, h3⟩ := of_decide_eq_true h'
  refine ⟨sol, h, h1, by norm_num, fun i => ?_, fun i => ?_, fun i => ?_, fun i => ?_⟩
  all_goals rw [Subsingleton.elim i 0]
  · simpa [lpPbm, mulVec, dotProduct] using h2
  · simp [lpPbm, mulVec, dotProduct]
  · norm_num [lpPbm, abs_of_pos]
  · simpa [lpPbm, mulVec, dotProduct] using h3

/-- The assumptions of `qp_answers_converge` are met. -/
example : ∃ C e0 : ℝ, 0 ≤ C ∧ 0 < e0 ∧ ∀ (fuel : ℕ) (sol : Sol ℝ 1 1) (e : ℝ), 0 ≤ e → e ≤ e0 → solveQP (realEnv 1) (tolPrm e) boxPbm none fuel = .ok sol →
    sol.code = .optimal → |sol.primal 0| ≤ C * e := by
  obtain ⟨C, e0, hC, he0, h⟩ := qp_answers_converge (env := realEnv 1) (prm := Params.default) (p := boxPbm) (ws := none) (realEnv_sqrt 1) (realEnv_ldlt 1) boxPbm_psd
    (by norm_num [Params.default]) (by norm_num [Params.default]) (by norm_num [Params.default]) (by norm_num [Params.default])
    ⟨0, (qp_minimiser_iff boxPbm_psd 0).2 ⟨0, boxPbm_kkt⟩⟩
  refine ⟨C, e0, hC, he0, fun fuel sol e he hle hs hc => ?_⟩
  obtain ⟨x, y, h1, -, h2, -⟩ := h (tolPrm e) fuel sol rfl rfl rfl rfl rfl he le_rfl (by simpa [tolPrm] using hle) hs hc
  have := h2 0
  rw [boxPbm_unique x h1, Pi.zero_apply, zero_sub, abs_neg] at this
  simpa [tolPrm] using this

/-- The assumptions of `qp_solutions_stable` are met: moving the bounds of the box and the vector. -/
example : ∃ C e0 : ℝ, 0 < e0 ∧ ∀ d, 0 ≤ d → d ≤ e0 → ∀ x' y', KKT ⟨boxPbm.P, fun _ => d, boxPbm.A, fun _ => .fin (-1 - d), fun _ => .fin (1 + d)⟩ x' y' →
    |x' 0| ≤ C * d := by
  obtain ⟨C, -, hC⟩ := qp_solutions_stable boxPbm.P boxPbm.A
  obtain ⟨e0, he0, h⟩ := hC boxPbm.q boxPbm.l boxPbm.u ⟨_, boxPbm_kkt.1⟩
  refine ⟨C, e0, he0, fun d hd hle x' y' hk => ?_⟩
  obtain ⟨x, y, h1, h2, -⟩ := h (fun _ => d) _ _ d hd hle (fun j => by simp [boxPbm, abs_of_nonneg hd]) (fun i => by
      have : -1 - d - -1 = -d := by ring
      simp [NearBound, boxPbm, this, abs_of_nonneg hd, -sub_neg_eq_add])
    (fun i => by simp [NearBound, boxPbm, abs_of_nonneg hd]) x' y' hk
  have h3 := boxPbm_unique x ((qp_minimiser_iff boxPbm_psd x).2 ⟨y, h1⟩)
  have := h2 0
  rwa [h3, Pi.zero_apply, zero_sub, abs_neg] at this

/-- The assumptions of `qp_threshold_strict` are met: one equality and one row with two bounds. -/
example : StrictPoint (⟨0, 0, 1, ![.fin 0, .fin (-1)], ![.fin 0, .pos]⟩ : Pbm ℚ 2 2) 0 ∧
    IndependentEqualities (⟨0, 0, 1, ![.fin 0, .fin (-1)], ![.fin 0, .pos]⟩ : Pbm ℚ 2 2) := by
  refine ⟨fun i => ?_, fun d hd _ => by simpa using hd⟩
  fin_cases i
  · left; simp
  · right; simp

/-- The assumptions of `qp_threshold_convex_partial` are met by the programs of the negation, whose runs do report `DualInfeasible`. -/
example : ∀ d : Fin 1 → ℚ, d ≠ 0 → 0 < d ⬝ᵥ (parabola 1 (-8) (1474995 / 225001)).P *ᵥ d := by
  intro d hd
  have h0 : d 0 ≠ 0 := fun h => hd (funext fun i => by rw [Subsingleton.elim i 0]; exact h)
  simp only [parabola, mulVec, dotProduct, Fin.sum_univ_one, one_mul]
  exact mul_self_pos.2 h0

end Verif.QP
