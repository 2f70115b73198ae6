import Verif.Proofs.EKF
import Mathlib.Tactic.NormNum
import Mathlib.Tactic.FinCases
import Mathlib.Data.Rat.Defs
import Mathlib.Algebra.Order.Ring.Rat
import Mathlib.Algebra.Order.Archimedean.Basic

/-! # Properties of the extended Kalman filter (C51 - C55) -/

set_option linter.unusedSectionVars false

namespace Verif.EKF

open Matrix EKFSpec Lin

universe v

variable {G : Type*} {F : Type v} {n : ℕ} [Field F] [LinearOrder F] [IsStrictOrderedRing F]

/-! ## C51 symmetry -/

/-- Every reset in the history supplies a symmetric covariance. -/
def ResetsSymm (ops : List (Op G F n)) : Prop := ∀ g P, Op.reset g P ∈ ops → P.IsSymm

/-- **C51** Whatever the dynamics, measurements, noise matrices (even unsymmetric) and external solver: after any
history of operations the covariance is symmetric if it was and if all reset covariances are. -/
theorem ekf_covariance_symmetric (env : Env G F n) (fuel : ℕ) (ops : List (Op G F n)) :
    ∀ (s s' : State G F n), s.P.IsSymm → ResetsSymm ops → run env fuel s ops = some s' → s'.P.IsSymm := by
  induction ops with
  | nil => intro s s' h _ hr; simp only [run, Option.some.injEq] at hr; subst hr; exact h
  | cons o os ih =>
    intro s s' h hres hr
    simp only [run, Option.bind_eq_some_iff] at hr
    obtain ⟨s1, h1, h2⟩ := hr
    refine ih s1 s' ?_ (fun g P hm => hres g P (List.mem_cons_of_mem _ hm)) h2
    cases o with
    | reset g P =>
      simp only [step, reset, Option.some.injEq] at h1
      subst h1
      exact hres g P List.mem_cons_self
    | predict d Q tau dt =>
      simp only [step, predict] at h1
      split at h1
      · cases h1
      · rename_i t s2 he
        cases h1
        exact odeStep_isSymm _ _ _ _ _ _ (predictLoop_isSymm env d Q _ _ fuel 0 s (t, s2) h he)
    | update z R =>
      simp only [step, update, Option.some.injEq] at h1
      subst h1
      exact symU_isSymm _

/-- **C51** in particular from the initial state (identity covariance). -/
theorem ekf_covariance_symmetric_from_init (env : Env G F n) (fuel : ℕ) (ops : List (Op G F n)) (s' : State G F n)
    (h : ResetsSymm ops) (hr : run env fuel (init env) ops = some s') : s'.P.IsSymm :=
  ekf_covariance_symmetric env fuel ops _ s' (Matrix.isSymm_one) h hr

/-! ## C52 definiteness -/

/-- **C52**, update half: with positive semidefinite prior and positive definite (upper part of) `R`, the posterior
covariance is positive semidefinite and not larger than the prior, for any measurement model and any state manifold. -/
theorem ekf_update_psd_and_decreasing (env : Env G F n) (hs : SolveOk env) (z : Meas G F n) (R : Mat z.m z.m F)
    (s : State G F n) (hP : PSD s.P) (hR : PD (symU R)) :
    PSD (update env z R s).P ∧ PSD (s.P - (update env z R s).P) := by
  have h := update_cov_PSD s.P (z.jac s.g) (symU R) hP hR
  have hd := update_cov_decrease s.P (z.jac s.g) (symU R) hP hR
  have he := update_eq env hs z R s hP hR
  have hP' : (update env z R s).P
      = (1 - s.P * (z.jac s.g)ᵀ * (innov s.P (z.jac s.g) (symU R))⁻¹ * z.jac s.g) * s.P := by
    rw [he]
    exact symU_of_isSymm _ h.1
  rw [hP']
  exact ⟨h, hd⟩

/-- The covariance after one Euler step, exactly: the congruence with `I + dt A` plus `dt Q` minus the second order
term `dt² A P Aᵀ` that forward Euler drops. -/
theorem ekf_predict_step_identity (env : Env G F n) (he : env.tab = Tableau.euler) (d : Dyn G F n) (Q : Mat n n F) (s : State G F n) (t dt : F)
    (hP : s.P.IsSymm) (hQ : Q.IsSymm) :
    let A := -env.ad (d.f t s.g) + d.df t s.g
    (odeStep env d Q s t dt).P
      = (1 + dt • A) * s.P * (1 + dt • A)ᵀ + dt • Q - (dt * dt) • (A * s.P * Aᵀ) := by
  intro A
  have hsym : (A * s.P + s.P * Aᵀ + Q).IsSymm := by
    unfold Matrix.IsSymm
    rw [Matrix.transpose_add, Matrix.transpose_add, Matrix.transpose_mul, Matrix.transpose_mul,
      Matrix.transpose_transpose, hP.eq, hQ.eq]
    abel
  rw [odeStep_euler env he]
  show s.P + dt • symU (A * s.P + s.P * Aᵀ + Q) = _
  have ht : (1 + dt • A)ᵀ = 1 + dt • Aᵀ := by rw [Matrix.transpose_add, Matrix.transpose_one, Matrix.transpose_smul]
  rw [symU_of_isSymm _ hsym, ht]
  clear_value A
  simp only [Matrix.add_mul, Matrix.mul_add, Matrix.one_mul, Matrix.mul_one, Matrix.smul_mul, Matrix.mul_smul,
    smul_add, smul_smul, Matrix.mul_assoc]
  abel

/-- **C52** (partial).  FULL CLAIM: `predict` keeps the covariance positive semidefinite; false of the code, see
`ekf_predict_breaks_psd`.  Proved: one step does so whenever the process noise dominates the second-order term
forward Euler drops (`dt * A P Aᵀ ≤ Q`); for instance always when `A P Aᵀ = 0`.  Missing: large steps. -/
theorem ekf_predict_step_psd_partial (env : Env G F n) (he : env.tab = Tableau.euler) (d : Dyn G F n) (Q : Mat n n F) (s : State G F n) (t dt : F)
    (hP : PSD s.P) (hQ : Q.IsSymm) (hdt : 0 ≤ dt)
    (hdom : let A := -env.ad (d.f t s.g) + d.df t s.g; PSD (Q - dt • (A * s.P * Aᵀ))) :
    PSD (odeStep env d Q s t dt).P := by
  rw [ekf_predict_step_identity env he d Q s t dt hP.1 hQ]
  set A := -env.ad (d.f t s.g) + d.df t s.g
  have : (1 + dt • A) * s.P * (1 + dt • A)ᵀ + dt • Q - (dt * dt) • (A * s.P * Aᵀ)
      = (1 + dt • A) * s.P * (1 + dt • A)ᵀ + dt • (Q - dt • (A * s.P * Aᵀ)) := by
    rw [smul_sub, smul_smul, add_sub_assoc]
  rw [this]
  refine (hP.congr _).add ⟨?_, ?_⟩
  · unfold Matrix.IsSymm
    rw [Matrix.transpose_smul, hdom.1.eq]
  · intro v
    rw [Matrix.smul_mulVec, dotProduct_smul, smul_eq_mul]
    exact mul_nonneg hdt (hdom.2 v)

/-- Scalar filter on the rationals, exact solver. -/
noncomputable def demoEnv : Env ℚ ℚ 1 where
  tab := .euler
  rplus g v := g + v 0
  ad _ := 0
  default := 0
  solve S B := S⁻¹ * B

/-- Stable dynamics `x' = -x`. -/
def demoDyn : Dyn ℚ ℚ 1 := { f := fun _ g _ => -g, df := fun _ _ => !![-1] }

/-- **C52 is false of the code** for `predict`: for the stable system `x' = -x` without process noise, predicting one
time unit in one (default) step turns the unit covariance into `-1`. -/
theorem ekf_predict_breaks_psd :
    ∃ s', predict demoEnv demoDyn 0 1 none 1 (init demoEnv) = some s' ∧ PSD (init demoEnv).P ∧ PSD (0 : Mat 1 1 ℚ) ∧
      s'.P = !![-1] ∧ ¬ PSD s'.P := by
  have hP : (odeStep demoEnv demoDyn 0 (init demoEnv) 0 (1 - 0)).P = !![-1] := by
    ext i j
    fin_cases i; fin_cases j
    rw [odeStep_euler _ rfl]
    norm_num [covRhs, symU, demoEnv, demoDyn, init, Matrix.mul_apply]
  refine ⟨odeStep demoEnv demoDyn 0 (init demoEnv) 0 (1 - 0), by norm_num [predict, predictLoop], ?_, ?_, ?_, ?_⟩
  · refine ⟨Matrix.isSymm_one, fun v => ?_⟩
    simp [init, Matrix.one_mulVec, dotProduct]
    exact mul_self_nonneg _
  · exact ⟨Matrix.isSymm_zero, fun v => by simp⟩
  · exact hP
  · intro h
    rw [hP] at h
    have := h.2 (fun _ => 1)
    norm_num [Matrix.mulVec, dotProduct] at this

/-! ## C54 prediction steps -/

/-- **C54** For every positive `dt` (any `tau`) `predict` returns, and the result is the recursion of the stepper along a gap-free
grid from `0` to exactly `tau`; all steps but the last have length exactly `dt`, the last one is at most `dt` and, for
`tau > 0`, positive. -/
theorem ekf_predict_covers_interval [Archimedean F] (env : Env G F n) (d : Dyn G F n) (Q : Mat n n F) (tau dt : F)
    (hdt : 0 < dt) (s : State G F n) :
    ∃ (fuel : ℕ) (s' : State G F n) (full : List (F × F)) (tl : F),
      (∀ f, fuel ≤ f → predict env d Q tau (some dt) f s = some s') ∧
      Grid 0 tau (full ++ [(tl, tau - tl)]) ∧ (∀ p ∈ full, p.2 = dt) ∧ tau - tl ≤ dt ∧ (0 < tau → 0 < tau - tl) ∧
      s' = (full ++ [(tl, tau - tl)]).foldl (fun s p => odeStep env d Q s p.1 p.2) s := by
  obtain ⟨fuel, r, hr⟩ := predictLoop_terminates env d Q tau dt hdt 0 s
  obtain ⟨k, h1, h2, h3, h4⟩ := predictLoop_grid env d Q tau dt fuel 0 s r hr
  refine ⟨fuel, odeStep env d Q r.2 r.1 (tau - r.1),
    (List.range k).map (fun j : ℕ => (0 + j * dt, dt)), r.1, ?_, ?_, ?_, ?_, ?_, ?_⟩
  · intro f hf
    have := predictLoop_fuel_mono env d Q tau dt fuel f hf 0 s r hr
    simp [predict, this]
  · apply grid_range
    exact ⟨h1, by show _ = tau; rw [← h1]; ring⟩
  · intro p hp
    simp only [List.mem_map] at hp
    obtain ⟨j, _, rfl⟩ := hp
    rfl
  · rw [h1]; linarith [not_lt.1 h3]
  · intro htau
    rw [h1]
    cases k with
    | zero => simpa using htau
    | succ k =>
      have := h2 k (by omega)
      push_cast
      linarith
  · rw [List.foldl_append, ← h4]; rfl

/-- **C54** Without `dt` a nonnegative interval is covered by exactly one step of length `tau`. -/
theorem ekf_predict_default_single_step (env : Env G F n) (d : Dyn G F n) (Q : Mat n n F) (tau : F) (htau : 0 ≤ tau)
    (s : State G F n) (fuel : ℕ) (hf : 0 < fuel) :
    predict env d Q tau none fuel s = some (odeStep env d Q s 0 tau) := by
  obtain ⟨f, rfl⟩ : ∃ f, fuel = f + 1 := ⟨fuel - 1, by omega⟩
  have : ¬ (0 + 2 * tau < tau) := by linarith
  simp [predict, predictLoop, show ¬ (2 * tau < tau) by linarith]

/-- **C54, excluded inputs**: a negative interval with the default step never returns. -/
theorem ekf_predict_negative_time_hangs (env : Env G F n) (d : Dyn G F n) (Q : Mat n n F) (tau : F) (htau : tau < 0)
    (s : State G F n) (fuel : ℕ) : predict env d Q tau none fuel s = none := by
  have : ∀ (t : F) (s : State G F n), t ≤ 0 → predictLoop env d Q tau (2 * tau) fuel t s = none := by
    induction fuel with
    | zero => intros; rfl
    | succ f ih =>
      intro t s ht
      unfold predictLoop
      rw [if_pos (by linarith)]
      exact ih _ _ (by linarith)
  simp [predict, this 0 s le_rfl]

/-- **C54, excluded inputs**: a nonpositive step with a positive interval never returns. -/
theorem ekf_predict_nonpositive_dt_hangs (env : Env G F n) (d : Dyn G F n) (Q : Mat n n F) (tau dt : F) (hdt : dt ≤ 0)
    (htau : 0 < tau) (s : State G F n) (fuel : ℕ) : predict env d Q tau (some dt) fuel s = none := by
  have : ∀ (t : F) (s : State G F n), t ≤ 0 → predictLoop env d Q tau dt fuel t s = none := by
    induction fuel with
    | zero => intros; rfl
    | succ f ih =>
      intro t s ht
      unfold predictLoop
      rw [if_pos (by linarith)]
      exact ih _ _ (by linarith)
  simp [predict, this 0 s le_rfl]

/-! ## C55 only upper triangles are read -/

/-- **C55** Process noise matrices with equal upper triangles give the same prediction (also the same non-return). -/
theorem ekf_predict_upper_Q (env : Env G F n) (d : Dyn G F n) (Q Q' : Mat n n F) (hQ : UpperEq Q Q') (tau : F)
    (dt : Option F) (fuel : ℕ) (s : State G F n) :
    predict env d Q tau dt fuel s = predict env d Q' tau dt fuel s := by
  have hstep : ∀ (s : State G F n) t h, odeStep env d Q s t h = odeStep env d Q' s t h := by
    intro s t h
    unfold odeStep
    rw [show covRhs env d Q s.g = covRhs env d Q' s.g from funext fun t => funext fun P => symU_congr (upperEq_add_left _ hQ)]
  have hloop : ∀ dtv f t s, predictLoop env d Q tau dtv f t s = predictLoop env d Q' tau dtv f t s := by
    intro dtv f
    induction f with
    | zero => intros; rfl
    | succ f ih => intro t s; unfold predictLoop; rw [hstep, ih]
  unfold predict
  rw [hloop]
  cases predictLoop env d Q' tau (dt.getD (2 * tau)) fuel 0 s with
  | none => rfl
  | some r => simp only [hstep]

/-- **C55** Measurement noise matrices with equal upper triangles give the same update. -/
theorem ekf_update_upper_R (env : Env G F n) (z : Meas G F n) (R R' : Mat z.m z.m F) (hR : UpperEq R R')
    (s : State G F n) : update env z R s = update env z R' s := by
  unfold update
  simp only
  rw [symU_congr (upperEq_add_left _ hR)]

/-! ## C53 fusion of linear measurements on a vector space -/

/-- **C53** Fusing any list of linear measurements yields the batch information-form posterior:
`(I + P₀ M) P' = P₀`, `(I + P₀ M) g' = g₀ + P₀ b` with the total information `M`, `b` of the measurements, where
`I + P₀ M` is invertible, so the posterior is determined by `M` and `b`. -/
theorem ekf_fusion_information_form (env : Env (Vec n F) F n) (hs : SolveOk env) (hv : VectorSpace env)
    (zs : List (LinMeas F n)) (s : State (Vec n F) F n) (hP : PSD s.P) (hR : ∀ z ∈ zs, PD z.R) :
    IsUnit (1 + s.P * info zs).det ∧ PSD (fuse env zs s).P ∧ (1 + s.P * info zs) * (fuse env zs s).P = s.P ∧
      (1 + s.P * info zs) *ᵥ (fuse env zs s).g = s.g + s.P *ᵥ infoVec zs :=
  fuse_info env hs hv zs s hP hR

/-- **C53** The order in which linear measurements are fused does not matter (estimate and covariance). -/
theorem ekf_fusion_order_independent (env : Env (Vec n F) F n) (hs : SolveOk env) (hv : VectorSpace env)
    (zs zs' : List (LinMeas F n)) (hperm : zs.Perm zs') (s : State (Vec n F) F n) (hP : PSD s.P)
    (hR : ∀ z ∈ zs, PD z.R) : fuse env zs s = fuse env zs' s := by
  obtain ⟨a1, _, a3, a4⟩ := fuse_info env hs hv zs s hP hR
  obtain ⟨b1, _, b3, b4⟩ := fuse_info env hs hv zs' s hP (fun z hz => hR z (hperm.mem_iff.2 hz))
  have hi : info zs = info zs' := (hperm.map _).sum_eq
  have hiv : infoVec zs = infoVec zs' := (hperm.map _).sum_eq
  rw [← hi] at b3 b4
  rw [← hiv] at b4
  have h1 : (fuse env zs s).P = (fuse env zs' s).P := isUnit_det_cancel a1 (a3.trans b3.symm)
  have h2 : (fuse env zs s).g = (fuse env zs' s).g := isUnit_det_cancel_vec a1 (a4.trans b4.symm)
  cases hx : fuse env zs s
  cases hy : fuse env zs' s
  rw [hx, hy] at h1 h2
  simp only at h1 h2
  rw [h1, h2]

/-- **C53** With a positive definite prior the fused estimate minimises the sum of the covariance-weighted squared prior
distance and measurement residuals (the maximum a posteriori estimate). -/
theorem ekf_fusion_bayes_optimal (env : Env (Vec n F) F n) (hs : SolveOk env) (hv : VectorSpace env)
    (zs : List (LinMeas F n)) (s : State (Vec n F) F n) (hP : PD s.P) (hR : ∀ z ∈ zs, PD z.R) (w : Vec n F) :
    cost s.P s.g zs (fuse env zs s).g ≤ cost s.P s.g zs w := by
  obtain ⟨_, _, _, a4⟩ := fuse_info env hs hv zs s hP.psd hR
  set g := (fuse env zs s).g
  have hstat : s.P⁻¹ *ᵥ (g - s.g) = infoVec zs - info zs *ᵥ g := by
    have h1 : g - s.g = s.P *ᵥ (infoVec zs - info zs *ᵥ g) := by
      rw [Matrix.add_mulVec, Matrix.one_mulVec, ← Matrix.mulVec_mulVec] at a4
      rw [Matrix.mulVec_sub, eq_sub_iff_add_eq, sub_add_eq_add_sub, a4]
      abel
    rw [h1, Matrix.mulVec_mulVec, Matrix.nonsing_inv_mul _ hP.isUnit_det, Matrix.one_mulVec]
  have hPi := psd_inv hP
  have hw : w - s.g = (g - s.g) + (w - g) := by abel
  have h1 := quad_expand s.P⁻¹ hPi.1 (g - s.g) (w - g)
  have h2 := hPi.2 (w - g)
  have h3 := residuals_lower zs hR g (w - g)
  rw [hstat] at h1
  have hwg : g + (w - g) = w := by abel
  rw [hwg] at h3
  unfold cost
  rw [hw, h1]
  rw [hstat]
  linarith

/-! ## Non-vacuity -/

/-- A two-dimensional vector-space filter with an exact solver. -/
noncomputable def demoEnv2 : Env (Vec 2 ℚ) ℚ 2 where
  tab := .euler
  rplus g v := g + v
  ad _ := 0
  default := 0
  solve S B := S⁻¹ * B

/-- Two scalar measurements of different coordinates with different noise. -/
def demoZs : List (LinMeas ℚ 2) :=
  [⟨1, !![1, 0], ![0], !![2], ![3]⟩, ⟨1, !![1, 1], ![1], !![5], ![-1]⟩]

theorem pd_one_by_one (r : ℚ) (hr : 0 < r) : PD (!![r] : Mat 1 1 ℚ) := by
  refine ⟨by ext i j; fin_cases i; fin_cases j; rfl, fun v hv => ?_⟩
  have : v 0 ≠ 0 := fun h => hv (by ext i; fin_cases i; exact h)
  have h2 : v ⬝ᵥ (!![r] : Mat 1 1 ℚ) *ᵥ v = r * (v 0 * v 0) := by
    simp [Matrix.mulVec, dotProduct]; ring
  rw [h2]
  exact mul_pos hr (mul_self_pos.2 this)

example : SolveOk demoEnv2 ∧ VectorSpace demoEnv2 ∧ PD (init demoEnv2).P ∧ (∀ z ∈ demoZs, PD z.R) := by
  refine ⟨?_, fun _ _ => rfl, ⟨Matrix.isSymm_one, fun v hv => ?_⟩, ?_⟩
  · intro m S B hS
    show S * (S⁻¹ * B) = B
    rw [← Matrix.mul_assoc, Matrix.mul_nonsing_inv S hS, Matrix.one_mul]
  · have : v 0 ≠ 0 ∨ v 1 ≠ 0 := by
      by_contra h
      push Not at h
      exact hv (by ext i; fin_cases i <;> simp [h.1, h.2])
    simp only [init, Matrix.one_mulVec, dotProduct, Fin.sum_univ_two]
    rcases this with h | h
    · nlinarith [mul_self_pos.2 h, mul_self_nonneg (v 1)]
    · nlinarith [mul_self_pos.2 h, mul_self_nonneg (v 0)]
  · intro z hz
    simp only [demoZs, List.mem_cons, List.not_mem_nil, or_false] at hz
    rcases hz with rfl | rfl
    · exact pd_one_by_one 2 (by norm_num)
    · exact pd_one_by_one 5 (by norm_num)


example : SolveOk demoEnv := by
  intro m S B hS
  show S * (S⁻¹ * B) = B
  rw [← Matrix.mul_assoc, Matrix.mul_nonsing_inv S hS, Matrix.one_mul]

/-- A direct measurement of a scalar state. -/
def demoMeas : Meas ℚ ℚ 1 := { m := 1, Y := ℚ, h := id, jac := fun _ => 1, yminus := fun a b _ => a - b, y := 4 }

example : PSD (init demoEnv).P ∧ PD (symU (!![3] : Mat demoMeas.m demoMeas.m ℚ)) := by
  refine ⟨⟨Matrix.isSymm_one, fun v => ?_⟩, symU_isSymm _, fun v hv => ?_⟩
  · simp [init, Matrix.one_mulVec, dotProduct]; exact mul_self_nonneg _
  · have : v 0 ≠ 0 := fun h => hv (by ext i; fin_cases i; exact h)
    have h2 : v ⬝ᵥ symU (!![3] : Mat 1 1 ℚ) *ᵥ v = 3 * (v 0 * v 0) := by
      simp [symU, Matrix.mulVec, dotProduct]; ring
    have := mul_self_pos.2 this
    exact lt_of_lt_of_eq (by linarith) h2.symm

/-- Domination hypothesis of the partial theorem is satisfiable with nontrivial dynamics: `x' = -x`, `dt = 1/2`, `Q = 1`. -/
example : let A := -demoEnv.ad (demoDyn.f 0 (init demoEnv).g) + demoDyn.df 0 (init demoEnv).g
    PSD ((1 : Mat 1 1 ℚ) - (1 / 2 : ℚ) • (A * (init demoEnv).P * Aᵀ)) := by
  refine ⟨?_, fun v => ?_⟩
  · ext i j; fin_cases i; fin_cases j; rfl
  · have h : ((1 : Mat 1 1 ℚ) - (1 / 2 : ℚ) • ((-demoEnv.ad (demoDyn.f 0 (init demoEnv).g) + demoDyn.df 0 (init demoEnv).g)
        * (init demoEnv).P * (-demoEnv.ad (demoDyn.f 0 (init demoEnv).g) + demoDyn.df 0 (init demoEnv).g)ᵀ)) 0 0 = 1 / 2 := by
      norm_num [demoEnv, demoDyn, init, Matrix.mul_apply, Matrix.vecMul, Matrix.transpose_apply]
    simp only [Matrix.mulVec, dotProduct, Fin.sum_univ_one, Finset.univ_unique, Fin.default_eq_zero, Finset.sum_singleton]
    rw [h]
    nlinarith [mul_self_nonneg (v 0)]

/-- A prediction of one time unit in steps of at most 2/5 takes steps 2/5, 2/5, 1/5. -/
example : ∃ s', predict demoEnv demoDyn 0 1 (some (2 / 5)) 3 { g := 125, P := 1 } = some s' ∧ s'.g = 36 := by
  refine ⟨odeStep demoEnv demoDyn 0 (odeStep demoEnv demoDyn 0 (odeStep demoEnv demoDyn 0
    { g := 125, P := 1 } 0 (2 / 5)) (2 / 5) (2 / 5)) (4 / 5) (1 / 5), by norm_num [predict, predictLoop], ?_⟩
  rw [odeStep_euler _ rfl, odeStep_euler _ rfl, odeStep_euler _ rfl]
  norm_num [demoEnv, demoDyn]

example : UpperEq (!![1, 2; 7, 3] : Mat 2 2 ℚ) !![1, 2; 2, 3] ∧ (!![1, 2; 7, 3] : Mat 2 2 ℚ) ≠ !![1, 2; 2, 3] := by
  constructor
  · intro i j h; fin_cases i <;> fin_cases j <;> simp_all
  · intro h; have := congrFun (congrFun h 1) 0; norm_num at this

end Verif.EKF
