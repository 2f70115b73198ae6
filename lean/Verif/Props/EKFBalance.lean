import Verif.Spec.EKFBalance
import Verif.Props.EKFInfo

/-! # C153: balance of errors, innovations and noise -/

set_option linter.unusedSectionVars false

namespace Verif.EKF

open Matrix EKFSpec Lin

universe v

variable {F : Type v} {n m : ℕ} [Field F] [LinearOrder F] [IsStrictOrderedRing F]

theorem psd_unit_pd {P : Mat n n F} (h : PSD P) (hu : IsUnit P.det) : PD P := by
  refine ⟨h.1, fun v hv => lt_of_le_of_ne (h.2 v) fun h0 => hv ?_⟩
  have hz : P *ᵥ v = 0 := by
    have h1 := psd_cauchy h (P *ᵥ v) v
    rw [← h0, mul_zero] at h1
    have h2 : (P *ᵥ v) ⬝ᵥ P *ᵥ v = 0 := pow_eq_zero_iff two_ne_zero |>.1 (le_antisymm h1 (sq_nonneg _))
    funext i
    have h3 : ∑ j, (P *ᵥ v) j * (P *ᵥ v) j = 0 := h2
    exact mul_self_eq_zero.1 ((Finset.sum_eq_zero_iff_of_nonneg fun j _ => mul_self_nonneg _).1 h3 i (Finset.mem_univ i))
  have := congrArg (fun w => P⁻¹ *ᵥ w) hz
  simpa [Matrix.mulVec_mulVec, Matrix.nonsing_inv_mul _ hu] using this

/-- Completing the square. -/
theorem complete_square {P J : Mat n n F} {H : Mat m n F} {R S : Mat m m F} (hPu : IsUnit P.det) (hRu : IsUnit R.det) (hSu : IsUnit S.det)
    (hS : S = H * P * Hᵀ + R) (hJ : J = P⁻¹ + Hᵀ * R⁻¹ * H) (hJs : J.IsSymm) (hRs : R⁻¹.IsSymm) (e : Vec n F) (r : Vec m F) :
    (e - (P * Hᵀ * S⁻¹) *ᵥ r) ⬝ᵥ J *ᵥ (e - (P * Hᵀ * S⁻¹) *ᵥ r) + r ⬝ᵥ S⁻¹ *ᵥ r = e ⬝ᵥ P⁻¹ *ᵥ e + (r - H *ᵥ e) ⬝ᵥ R⁻¹ *ᵥ (r - H *ᵥ e) := by
  have k1 : J * (P * Hᵀ * S⁻¹) = Hᵀ * R⁻¹ := by
    have a1 : J * (P * Hᵀ) = Hᵀ * R⁻¹ * S := by
      rw [hJ, hS, Matrix.add_mul, ← Matrix.mul_assoc P⁻¹, Matrix.nonsing_inv_mul _ hPu, Matrix.one_mul, Matrix.mul_add, Matrix.mul_assoc Hᵀ R⁻¹ R,
        Matrix.nonsing_inv_mul _ hRu, Matrix.mul_one]
      simp only [Matrix.mul_assoc]
      abel
    rw [← Matrix.mul_assoc, a1, Matrix.mul_assoc, Matrix.mul_nonsing_inv _ hSu, Matrix.mul_one]
  have k2 : R⁻¹ * (H * (P * Hᵀ * S⁻¹)) = R⁻¹ - S⁻¹ := by
    have a1 : H * (P * Hᵀ * S⁻¹) = 1 - R * S⁻¹ := by
      have : H * (P * Hᵀ * S⁻¹) = (S - R) * S⁻¹ := by rw [hS, add_sub_cancel_right]; simp only [Matrix.mul_assoc]
      rw [this, Matrix.sub_mul, Matrix.mul_nonsing_inv _ hSu]
    rw [a1, Matrix.mul_sub, Matrix.mul_one, ← Matrix.mul_assoc, Matrix.nonsing_inv_mul _ hRu, Matrix.one_mul]
  set q := (P * Hᵀ * S⁻¹) *ᵥ r with hq
  have hJq : J *ᵥ q = (Hᵀ * R⁻¹) *ᵥ r := by rw [hq, Matrix.mulVec_mulVec, k1]
  have hmove : ∀ a : Vec n F, a ⬝ᵥ (Hᵀ * R⁻¹) *ᵥ r = (H *ᵥ a) ⬝ᵥ R⁻¹ *ᵥ r := fun a => by
    rw [show (Hᵀ * R⁻¹) *ᵥ r = Hᵀ *ᵥ (R⁻¹ *ᵥ r) from (Matrix.mulVec_mulVec _ _ _).symm, Matrix.dotProduct_mulVec, Matrix.vecMul_transpose]
  have hHq : R⁻¹ *ᵥ (H *ᵥ q) = R⁻¹ *ᵥ r - S⁻¹ *ᵥ r := by
    rw [hq, Matrix.mulVec_mulVec, Matrix.mulVec_mulVec, Matrix.mul_assoc, k2, Matrix.sub_mulVec]
  have e1 : (e - q) ⬝ᵥ J *ᵥ (e - q) = e ⬝ᵥ J *ᵥ e - 2 * (e ⬝ᵥ J *ᵥ q) + q ⬝ᵥ J *ᵥ q := by
    rw [Matrix.mulVec_sub, sub_dotProduct, dotProduct_sub, dotProduct_sub, quad_comm hJs q e]; ring
  have e2 : e ⬝ᵥ J *ᵥ e = e ⬝ᵥ P⁻¹ *ᵥ e + (H *ᵥ e) ⬝ᵥ R⁻¹ *ᵥ (H *ᵥ e) := by
    rw [hJ, Matrix.add_mulVec, dotProduct_add]
    congr 1
    rw [show (Hᵀ * R⁻¹ * H) *ᵥ e = Hᵀ *ᵥ (R⁻¹ *ᵥ (H *ᵥ e)) by rw [Matrix.mulVec_mulVec, Matrix.mulVec_mulVec, Matrix.mul_assoc], Matrix.dotProduct_mulVec,
      Matrix.vecMul_transpose]
  have e3 : q ⬝ᵥ J *ᵥ q = r ⬝ᵥ R⁻¹ *ᵥ r - r ⬝ᵥ S⁻¹ *ᵥ r := by
    rw [hJq, hmove, quad_comm hRs, hHq, dotProduct_sub]
  have e4 : (r - H *ᵥ e) ⬝ᵥ R⁻¹ *ᵥ (r - H *ᵥ e) = r ⬝ᵥ R⁻¹ *ᵥ r - 2 * ((H *ᵥ e) ⬝ᵥ R⁻¹ *ᵥ r) + (H *ᵥ e) ⬝ᵥ R⁻¹ *ᵥ (H *ᵥ e) := by
    rw [Matrix.mulVec_sub, sub_dotProduct, dotProduct_sub, dotProduct_sub, quad_comm hRs r (H *ᵥ e)]; ring
  rw [e1, e2, hJq, hmove, ← hJq, e3, e4]
  ring

/-- **C153** One update, any sensor and any reading: error after plus innovation equals error before plus noise. -/
theorem ekf_update_balance (env : Env (Vec n F) F n) (hs : SolveOk env) (hv : ∀ g v, env.rplus g v = g + v) (r : Reading (Vec n F) F n) (s : State (Vec n F) F n)
    (hP : PD s.P) (hR : PD (mirrored r.R)) (x : Vec n F) :
    PD (update env r.z r.R s).P ∧
    errorSq x (update env r.z r.R s).g (update env r.z r.R s).P + innovationSq s.g s.P r = errorSq x s.g s.P + noiseSq x s.g r := by
  have hR' : PD (symU r.R) := hR
  obtain ⟨s', a1, a2, a3⟩ := ekf_information_sum env hs 0 [r] s hP (by intro r' hr; rw [List.mem_singleton] at hr; rw [hr]; exact hR)
  obtain rfl : update env r.z r.R s = s' := Option.some.inj a1
  simp only [estimates, infoAt, add_zero] at a3
  obtain ⟨-, c2, -⟩ := update_cov_info env hs r.z r.R s hP.psd hR
  have hPD := psd_unit_pd c2 a2
  refine ⟨hPD, ?_⟩
  have hg : (update env r.z r.R s).g = s.g + (s.P * (r.z.jac s.g)ᵀ * (innov s.P (r.z.jac s.g) (symU r.R))⁻¹) *ᵥ r.z.yminus r.z.y (r.z.h s.g) := by
    rw [show update env r.z r.R s = _ from update_eq env hs r.z r.R s hP.psd hR', ← hv]
  have hSd : IsUnit (innov s.P (r.z.jac s.g) (symU r.R)).det := (innov_PD (r.z.jac s.g) hP.psd hR').isUnit_det
  rw [errorSq, hg, ← sub_sub, a3]
  exact complete_square hP.isUnit_det hR'.isUnit_det hSd rfl rfl (a3 ▸ (psd_inv hPD).1) (psd_inv hR').1 (x - s.g) _

/-- The sums along a run of updates. -/
noncomputable def totals (env : Env (Vec n F) F n) (x : Vec n F) : State (Vec n F) F n → List (Reading (Vec n F) F n) → F × F
  | _, [] => (0, 0)
  | s, r :: rs => let t := totals env x (update env r.z r.R s) rs; (innovationSq s.g s.P r + t.1, noiseSq x s.g r + t.2)

/-- **C153** Any list of updates: last error plus all innovations equals first error plus all noise. -/
theorem ekf_balance (env : Env (Vec n F) F n) (hs : SolveOk env) (hv : ∀ g v, env.rplus g v = g + v) (fuel : ℕ) (x : Vec n F) (rs : List (Reading (Vec n F) F n)) :
    ∀ s : State (Vec n F) F n, PD s.P → (∀ r ∈ rs, PD (mirrored r.R)) → ∃ s', run env fuel s (rs.map fun r => .update r.z r.R) = some s' ∧ PD s'.P ∧
      errorSq x s'.g s'.P + (totals env x s rs).1 = errorSq x s.g s.P + (totals env x s rs).2 := by
  induction rs with
  | nil => intro s hP _; exact ⟨s, rfl, hP, by simp [totals]⟩
  | cons r rs ih =>
    intro s hP hR
    obtain ⟨h1, h2⟩ := ekf_update_balance env hs hv r s hP (hR r List.mem_cons_self) x
    obtain ⟨s', b0, b1, b2⟩ := ih (update env r.z r.R s) h1 fun r' hr => hR r' (List.mem_cons_of_mem _ hr)
    refine ⟨s', b0, b1, ?_⟩
    simp only [totals]
    linarith

theorem totals_nonneg (env : Env (Vec n F) F n) (hs : SolveOk env) (hv : ∀ g v, env.rplus g v = g + v) (x : Vec n F) (rs : List (Reading (Vec n F) F n)) :
    ∀ s : State (Vec n F) F n, PD s.P → (∀ r ∈ rs, PD (mirrored r.R)) → 0 ≤ (totals env x s rs).1 := by
  induction rs with
  | nil => intro s _ _; exact le_rfl
  | cons r rs ih =>
    intro s hP hR
    simp only [totals]
    have h1 := ih _ (ekf_update_balance env hs hv r s hP (hR r List.mem_cons_self) x).1 fun r' hr => hR r' (List.mem_cons_of_mem _ hr)
    have h2 : 0 ≤ innovationSq s.g s.P r := (psd_inv (innov_PD (r.z.jac s.g) hP.psd (hR r List.mem_cons_self))).2 _
    linarith

/-- **C153** The error weighted by the information collected is at most the first error plus all noise. -/
theorem ekf_error_information (env : Env (Vec n F) F n) (hs : SolveOk env) (hv : ∀ g v, env.rplus g v = g + v) (fuel : ℕ) (x : Vec n F)
    (rs : List (Reading (Vec n F) F n)) (s : State (Vec n F) F n) (hP : PD s.P) (hR : ∀ r ∈ rs, PD (mirrored r.R)) :
    ∃ s', run env fuel s (rs.map fun r => .update r.z r.R) = some s' ∧
      (x - s'.g) ⬝ᵥ infoAt rs (estimates env s rs) *ᵥ (x - s'.g) ≤ errorSq x s.g s.P + (totals env x s rs).2 := by
  obtain ⟨s', b0, b1, b2⟩ := ekf_balance env hs hv fuel x rs s hP hR
  obtain ⟨s'', c0, -, c2⟩ := ekf_information_sum env hs fuel rs s hP hR
  obtain rfl : s' = s'' := Option.some.inj (b0.symm.trans c0)
  refine ⟨s', b0, ?_⟩
  have h1 : errorSq x s'.g s'.P = (x - s'.g) ⬝ᵥ s.P⁻¹ *ᵥ (x - s'.g) + (x - s'.g) ⬝ᵥ infoAt rs (estimates env s rs) *ᵥ (x - s'.g) := by
    rw [errorSq, c2, Matrix.add_mulVec, dotProduct_add]
  have h2 := (psd_inv hP).2 (x - s'.g)
  have h3 := totals_nonneg env hs hv x rs s hP hR
  linarith

/-- **C153** If the information collected is at least `c > 0` in every direction, the squared distance to the truth is at most the first error plus all noise,
over `c`. -/
theorem ekf_error_bound (env : Env (Vec n F) F n) (hs : SolveOk env) (hv : ∀ g v, env.rplus g v = g + v) (fuel : ℕ) (x : Vec n F)
    (rs : List (Reading (Vec n F) F n)) (s : State (Vec n F) F n) (hP : PD s.P) (hR : ∀ r ∈ rs, PD (mirrored r.R)) (c : F) (hc : 0 < c)
    (hI : ∀ v : Vec n F, c * (v ⬝ᵥ v) ≤ v ⬝ᵥ infoAt rs (estimates env s rs) *ᵥ v) :
    ∃ s', run env fuel s (rs.map fun r => .update r.z r.R) = some s' ∧
      (x - s'.g) ⬝ᵥ (x - s'.g) ≤ (errorSq x s.g s.P + (totals env x s rs).2) / c := by
  obtain ⟨s', b0, b1⟩ := ekf_error_information env hs hv fuel x rs s hP hR
  refine ⟨s', b0, ?_⟩
  rw [le_div_iff₀ hc]
  linarith [hI (x - s'.g)]

theorem totals_noiseless (env : Env (Vec n F) F n) (x : Vec n F) (rs : List (Reading (Vec n F) F n)) : ∀ s : State (Vec n F) F n,
    (∀ r ∈ rs, ∀ g, r.z.yminus r.z.y (r.z.h g) = r.z.jac g *ᵥ (x - g)) → (totals env x s rs).2 = 0 := by
  induction rs with
  | nil => intro s _; rfl
  | cons r rs ih =>
    intro s h
    simp only [totals]
    rw [ih _ fun r' hr => h r' (List.mem_cons_of_mem _ hr), noiseSq, h r List.mem_cons_self, sub_self]
    simp

/-- **C153** If every reading is what the linearised sensor reads at the truth, the normalised error never grows, and all squared innovations together are at
most the first error. -/
theorem ekf_noiseless (env : Env (Vec n F) F n) (hs : SolveOk env) (hv : ∀ g v, env.rplus g v = g + v) (fuel : ℕ) (x : Vec n F) (rs : List (Reading (Vec n F) F n))
    (s : State (Vec n F) F n) (hP : PD s.P) (hR : ∀ r ∈ rs, PD (mirrored r.R)) (hz : ∀ r ∈ rs, ∀ g, r.z.yminus r.z.y (r.z.h g) = r.z.jac g *ᵥ (x - g)) :
    ∃ s', run env fuel s (rs.map fun r => .update r.z r.R) = some s' ∧ errorSq x s'.g s'.P ≤ errorSq x s.g s.P ∧ (totals env x s rs).1 ≤ errorSq x s.g s.P := by
  obtain ⟨s', b0, b1, b2⟩ := ekf_balance env hs hv fuel x rs s hP hR
  rw [totals_noiseless env x rs s hz, add_zero] at b2
  refine ⟨s', b0, ?_, ?_⟩
  · linarith [totals_nonneg env hs hv x rs s hP hR]
  · have : 0 ≤ errorSq x s'.g s'.P := (psd_inv b1).2 _
    linarith

/-! ## A scalar state -/

/-- A one-dimensional vector-space filter with an exact solver. -/
noncomputable def balEnv : Env (Vec 1 ℚ) ℚ 1 where
  tab := .euler
  rplus g v := g + v
  ad _ := 0
  default := 0
  solve S B := S⁻¹ * B

theorem balEnv_solve : SolveOk balEnv := by
  intro m S B hS
  show S * (S⁻¹ * B) = B
  rw [← Matrix.mul_assoc, Matrix.mul_nonsing_inv S hS, Matrix.one_mul]

/-- A reading `y` of the state, noise variance 3. -/
def balReading (y : ℚ) : Reading (Vec 1 ℚ) ℚ 1 :=
  ⟨{ m := 1, Y := Vec 1 ℚ, h := id, jac := fun _ => 1, yminus := fun a b => a - b, y := ![y] }, !![3]⟩

theorem bal_mirrored (y : ℚ) : mirrored (balReading y).R = (!![3] : Mat 1 1 ℚ) := by
  rw [mirrored_eq]
  exact symU_of_isSymm _ (pd_one_by_one 3 (by norm_num)).1

theorem bal_inv (a : ℚ) (ha : a ≠ 0) : (!![a] : Mat 1 1 ℚ)⁻¹ = !![1 / a] := by
  refine Matrix.inv_eq_left_inv ?_
  ext i j
  obtain rfl : i = 0 := Subsingleton.elim _ _
  obtain rfl : j = 0 := Subsingleton.elim _ _
  simp [Matrix.mul_apply, ha]

/-- Truth 4, estimate 0 with variance 1, reading 6: the error 16 before and the noise 4/3 after, against the innovation 9, leave 25/3. -/
theorem reading_balance : PD (update balEnv (balReading 6).z (balReading 6).R { g := 0, P := !![1] }).P ∧
    errorSq ![4] (update balEnv (balReading 6).z (balReading 6).R { g := 0, P := !![1] }).g
      (update balEnv (balReading 6).z (balReading 6).R { g := 0, P := !![1] }).P = 25 / 3 := by
  obtain ⟨h1, h2⟩ := ekf_update_balance balEnv balEnv_solve (fun _ _ => rfl) (balReading 6) { g := 0, P := !![1] } (pd_one_by_one 1 (by norm_num))
    (by rw [bal_mirrored]; exact pd_one_by_one 3 (by norm_num)) ![4]
  refine ⟨h1, ?_⟩
  have a1 : innovationSq (0 : Vec 1 ℚ) (!![1] : Mat 1 1 ℚ) (balReading 6) = 9 := by
    have e : ((1 : Mat 1 1 ℚ) * (!![1] : Mat 1 1 ℚ) * (1 : Mat 1 1 ℚ)ᵀ + mirrored (!![3] : Mat 1 1 ℚ) : Mat 1 1 ℚ) = !![4] := by
      rw [show mirrored (!![3] : Mat 1 1 ℚ) = !![3] from bal_mirrored 6, Matrix.one_mul, Matrix.transpose_one, Matrix.mul_one]
      ext i j
      obtain rfl : i = 0 := Subsingleton.elim _ _
      obtain rfl : j = 0 := Subsingleton.elim _ _
      norm_num
    have k : (![6] - 0 : Vec 1 ℚ) ⬝ᵥ ((1 : Mat 1 1 ℚ) * (!![1] : Mat 1 1 ℚ) * (1 : Mat 1 1 ℚ)ᵀ + mirrored (!![3] : Mat 1 1 ℚ) : Mat 1 1 ℚ)⁻¹
        *ᵥ (![6] - 0 : Vec 1 ℚ) = 9 := by
      rw [e, bal_inv 4 (by norm_num)]
      norm_num [dotProduct, Matrix.mulVec]
    exact k
  have a2 : noiseSq ![4] (0 : Vec 1 ℚ) (balReading 6) = 4 / 3 := by
    show ((![6] - 0 : Vec 1 ℚ) - (1 : Mat 1 1 ℚ) *ᵥ (![4] - 0)) ⬝ᵥ (mirrored (!![3] : Mat 1 1 ℚ))⁻¹ *ᵥ ((![6] - 0 : Vec 1 ℚ) - (1 : Mat 1 1 ℚ) *ᵥ (![4] - 0)) = 4 / 3
    rw [show mirrored (!![3] : Mat 1 1 ℚ) = !![3] from bal_mirrored 6, bal_inv 3 (by norm_num), Matrix.one_mulVec]
    norm_num [dotProduct, Matrix.mulVec]
  have a3 : errorSq ![4] (0 : Vec 1 ℚ) (!![1] : Mat 1 1 ℚ) = 16 := by
    rw [errorSq, bal_inv 1 (by norm_num)]
    norm_num [dotProduct, Matrix.mulVec]
  have h3 : errorSq ![4] (update balEnv (balReading 6).z (balReading 6).R { g := 0, P := !![1] }).g
      (update balEnv (balReading 6).z (balReading 6).R { g := 0, P := !![1] }).P + innovationSq (0 : Vec 1 ℚ) (!![1] : Mat 1 1 ℚ) (balReading 6)
      = errorSq ![4] (0 : Vec 1 ℚ) (!![1] : Mat 1 1 ℚ) + noiseSq ![4] (0 : Vec 1 ℚ) (balReading 6) := h2
  rw [a1, a2, a3] at h3
  linarith

/-- The hypotheses of `ekf_noiseless` at 100 readings of the true value 4. -/
example : ∃ s', run balEnv 0 { g := 0, P := !![1] } ((List.replicate 100 (balReading 4)).map fun r => .update r.z r.R) = some s' ∧
    errorSq ![4] s'.g s'.P ≤ errorSq ![4] (0 : Vec 1 ℚ) (!![1] : Mat 1 1 ℚ) ∧
    (totals balEnv ![4] { g := 0, P := !![1] } (List.replicate 100 (balReading 4))).1 ≤ errorSq ![4] (0 : Vec 1 ℚ) (!![1] : Mat 1 1 ℚ) := by
  refine ekf_noiseless balEnv balEnv_solve (fun _ _ => rfl) 0 ![4] _ { g := 0, P := !![1] } (pd_one_by_one 1 (by norm_num)) ?_ ?_
  · intro r hr
    rw [List.eq_of_mem_replicate hr, bal_mirrored]
    exact pd_one_by_one 3 (by norm_num)
  · intro r hr g
    rw [List.eq_of_mem_replicate hr]
    show (![4] : Vec 1 ℚ) - g = (1 : Mat 1 1 ℚ) *ᵥ (![4] - g)
    rw [Matrix.one_mulVec]

/-- The information of `k` readings is `k / 3`. -/
theorem bal_info (y : ℚ) (k : ℕ) : ∀ s : State (Vec 1 ℚ) ℚ 1,
    infoAt (List.replicate k (balReading y)) (estimates balEnv s (List.replicate k (balReading y))) = ((k : ℚ) / 3) • (1 : Mat 1 1 ℚ) := by
  induction k with
  | zero => intro s; simp [infoAt]
  | succ k ih =>
    intro s
    rw [List.replicate_succ, estimates, infoAt, ih]
    have e : (((balReading y).z.jac s.g)ᵀ * (mirrored (balReading y).R)⁻¹ * (balReading y).z.jac s.g : Mat 1 1 ℚ) = ((1 : ℚ) / 3) • (1 : Mat 1 1 ℚ) := by
      have k : ((1 : Mat 1 1 ℚ)ᵀ * (mirrored (!![3] : Mat 1 1 ℚ))⁻¹ * (1 : Mat 1 1 ℚ) : Mat 1 1 ℚ) = ((1 : ℚ) / 3) • (1 : Mat 1 1 ℚ) := by
        rw [show mirrored (!![3] : Mat 1 1 ℚ) = !![3] from bal_mirrored 6, bal_inv 3 (by norm_num), Matrix.transpose_one, Matrix.one_mul, Matrix.mul_one]
        ext i j
        obtain rfl : i = 0 := Subsingleton.elim _ _
        obtain rfl : j = 0 := Subsingleton.elim _ _
        norm_num
      exact k
    rw [e, ← add_smul]
    push_cast
    ring_nf

/-- After `k` readings of the true value 4 from the estimate 0, the squared error is at most `48 / k`. -/
theorem bal_converges (k : ℕ) (hk : 0 < k) : ∃ s', run balEnv 0 { g := 0, P := !![1] } ((List.replicate k (balReading 4)).map fun r => .update r.z r.R) = some s' ∧
    ((![4] : Vec 1 ℚ) - s'.g) ⬝ᵥ ((![4] : Vec 1 ℚ) - s'.g) ≤ (48 : ℚ) / k := by
  have hk' : (0 : ℚ) < k := Nat.cast_pos.2 hk
  have a3 : errorSq ![4] (0 : Vec 1 ℚ) (!![1] : Mat 1 1 ℚ) = 16 := by
    rw [errorSq, bal_inv 1 (by norm_num)]
    norm_num [dotProduct, Matrix.mulVec]
  have a4 : (totals balEnv ![4] { g := 0, P := !![1] } (List.replicate k (balReading 4))).2 = 0 := by
    refine totals_noiseless balEnv ![4] _ _ ?_
    intro r hr g
    rw [List.eq_of_mem_replicate hr]
    show (![4] : Vec 1 ℚ) - g = (1 : Mat 1 1 ℚ) *ᵥ (![4] - g)
    rw [Matrix.one_mulVec]
  have h48 : (48 : ℚ) / k = (errorSq ![4] (0 : Vec 1 ℚ) (!![1] : Mat 1 1 ℚ)
      + (totals balEnv ![4] { g := 0, P := !![1] } (List.replicate k (balReading 4))).2) / ((k : ℚ) / 3) := by
    rw [a3, a4]; field_simp; norm_num
  rw [h48]
  refine ekf_error_bound balEnv balEnv_solve (fun _ _ => rfl) 0 ![4] _ { g := 0, P := !![1] } (pd_one_by_one 1 (by norm_num)) ?_ _ (by positivity) ?_
  · intro r hr
    rw [List.eq_of_mem_replicate hr, bal_mirrored]
    exact pd_one_by_one 3 (by norm_num)
  · intro v
    rw [bal_info, Matrix.smul_mulVec, Matrix.one_mulVec, dotProduct_smul, smul_eq_mul]

end Verif.EKF
