import Verif.Spec.EKFRepeat
import Verif.Props.EKF
import Mathlib.Algebra.QuadraticDiscriminant
import Mathlib.Topology.Algebra.Order.Field
import Mathlib.Topology.Instances.Real.Lemmas
import Mathlib.Analysis.SpecificLimits.Basic
import Mathlib.Analysis.SpecialFunctions.Pow.NNReal
import Mathlib.Tactic.Linarith

/-! # C143: repeated measurements shrink the uncertainty and lead the estimate to the truth -/

set_option linter.unusedSectionVars false

namespace Verif.EKF

open Matrix EKFSpec Lin

universe v

variable {F : Type v} {n m : ℕ} [Field F] [LinearOrder F] [IsStrictOrderedRing F]

/-! ## Linear algebra -/

/-- `P' Λ P' ≤ P'` for the posterior `P'` in information form. -/
theorem post_le {P P' L : Mat n n F} (hP : PSD P) (hL : L.IsSymm) (hP' : PSD P') (hu : IsUnit (1 + P * L).det)
    (h : (1 + P * L) * P' = P) (v : Vec n F) : (P' *ᵥ v) ⬝ᵥ L *ᵥ (P' *ᵥ v) ≤ v ⬝ᵥ P' *ᵥ v := by
  have hut : IsUnit ((1 + P * L)ᵀ).det := by rwa [Matrix.det_transpose]
  obtain ⟨t, rfl⟩ : ∃ t, (1 + P * L)ᵀ *ᵥ t = v := ⟨((1 + P * L)ᵀ)⁻¹ *ᵥ v, by
    rw [Matrix.mulVec_mulVec, Matrix.mul_nonsing_inv _ hut, Matrix.one_mulVec]⟩
  have ht : P' * (1 + P * L)ᵀ = P := by
    have := congrArg Matrix.transpose h
    rwa [Matrix.transpose_mul, hP'.1.eq, hP.1.eq] at this
  have hv : P' *ᵥ ((1 + P * L)ᵀ *ᵥ t) = P *ᵥ t := by rw [Matrix.mulVec_mulVec, ht]
  have hM : (1 + P * L)ᵀ *ᵥ t = t + L *ᵥ (P *ᵥ t) := by
    rw [Matrix.transpose_add, Matrix.transpose_one, Matrix.transpose_mul, hP.1.eq, hL.eq, Matrix.add_mulVec,
      Matrix.one_mulVec, Matrix.mulVec_mulVec]
  rw [hv, hM, add_dotProduct, dotProduct_comm (L *ᵥ (P *ᵥ t))]
  linarith [hP.2 t]

/-- The posterior in information form is at most the prior. -/
theorem post_le_prior {P P' L : Mat n n F} (hP : PSD P) (hL : PSD L) (hP' : PSD P') (hu : IsUnit (1 + P * L).det)
    (h : (1 + P * L) * P' = P) (v : Vec n F) : v ⬝ᵥ P' *ᵥ v ≤ v ⬝ᵥ P *ᵥ v := by
  have hut : IsUnit ((1 + P * L)ᵀ).det := by rwa [Matrix.det_transpose]
  obtain ⟨t, rfl⟩ : ∃ t, (1 + P * L)ᵀ *ᵥ t = v := ⟨((1 + P * L)ᵀ)⁻¹ *ᵥ v, by
    rw [Matrix.mulVec_mulVec, Matrix.mul_nonsing_inv _ hut, Matrix.one_mulVec]⟩
  have ht : P' * (1 + P * L)ᵀ = P := by
    have := congrArg Matrix.transpose h
    rwa [Matrix.transpose_mul, hP'.1.eq, hP.1.eq] at this
  have hv : P' *ᵥ ((1 + P * L)ᵀ *ᵥ t) = P *ᵥ t := by rw [Matrix.mulVec_mulVec, ht]
  have hM : (1 + P * L)ᵀ *ᵥ t = t + L *ᵥ (P *ᵥ t) := by
    rw [Matrix.transpose_add, Matrix.transpose_one, Matrix.transpose_mul, hP.1.eq, hL.1.eq, Matrix.add_mulVec,
      Matrix.one_mulVec, Matrix.mulVec_mulVec]
  have h2 := hL.2 (P *ᵥ t)
  have h3 := hP.2 (L *ᵥ (P *ᵥ t))
  have h4 : t ⬝ᵥ P *ᵥ (L *ᵥ (P *ᵥ t)) = (P *ᵥ t) ⬝ᵥ L *ᵥ (P *ᵥ t) := by
    rw [Matrix.dotProduct_mulVec, ← Matrix.mulVec_transpose, hP.1.eq]
  rw [hv, hM, Matrix.mulVec_add, add_dotProduct, add_dotProduct, dotProduct_add, dotProduct_add, h4,
    dotProduct_comm (L *ᵥ (P *ᵥ t)) (P *ᵥ t)]
  linarith

theorem quad_comm {ι : Type*} [Fintype ι] {A : Matrix ι ι F} (hA : A.IsSymm) (u v : ι → F) : u ⬝ᵥ A *ᵥ v = v ⬝ᵥ A *ᵥ u := by
  rw [Matrix.dotProduct_mulVec, ← Matrix.mulVec_transpose, hA.eq, dotProduct_comm]

/-- Cauchy-Schwarz for a positive semidefinite matrix. -/
theorem psd_cauchy {ι : Type*} [Fintype ι] {A : Matrix ι ι F} (hA : PSD A) (u v : ι → F) :
    (u ⬝ᵥ A *ᵥ v) ^ 2 ≤ (u ⬝ᵥ A *ᵥ u) * (v ⬝ᵥ A *ᵥ v) := by
  have hd := discrim_le_zero (a := v ⬝ᵥ A *ᵥ v) (b := 2 * (u ⬝ᵥ A *ᵥ v)) (c := u ⬝ᵥ A *ᵥ u) (fun x => by
    have h := hA.2 (u + x • v)
    rw [Matrix.mulVec_add, Matrix.mulVec_smul, add_dotProduct, dotProduct_add, dotProduct_add, smul_dotProduct,
      smul_dotProduct, dotProduct_smul, dotProduct_smul, quad_comm hA.1 v u] at h
    simp only [smul_eq_mul] at h
    linarith)
  rw [discrim] at hd
  linarith

/-- The sensor block of `post_le`: `k H P' Hᵀ ≤ R` if `P' (k Hᵀ R⁻¹ H) P' ≤ P'`. -/
theorem sensor_le {P' : Mat n n F} (H : Mat m n F) {R : Mat m m F} (hR : PD R) (k : F) (hk : 0 ≤ k)
    (h : ∀ v : Vec n F, (P' *ᵥ v) ⬝ᵥ (k • (Hᵀ * R⁻¹ * H)) *ᵥ (P' *ᵥ v) ≤ v ⬝ᵥ P' *ᵥ v) (u : Vec m F) :
    k * ((Hᵀ *ᵥ u) ⬝ᵥ P' *ᵥ (Hᵀ *ᵥ u)) ≤ u ⬝ᵥ R *ᵥ u := by
  set q := H *ᵥ (P' *ᵥ (Hᵀ *ᵥ u)) with hq
  have ha : (Hᵀ *ᵥ u) ⬝ᵥ P' *ᵥ (Hᵀ *ᵥ u) = u ⬝ᵥ q := by
    rw [hq, Matrix.mulVec_transpose, ← Matrix.dotProduct_mulVec]
  have hb : k * (q ⬝ᵥ R⁻¹ *ᵥ q) ≤ u ⬝ᵥ q := by
    have := h (Hᵀ *ᵥ u)
    have hB : (P' *ᵥ (Hᵀ *ᵥ u)) ⬝ᵥ (Hᵀ * R⁻¹ * H) *ᵥ (P' *ᵥ (Hᵀ *ᵥ u)) = q ⬝ᵥ R⁻¹ *ᵥ q := by
      rw [← Matrix.mulVec_mulVec, ← Matrix.mulVec_mulVec, ← hq, dotProduct_comm, Matrix.mulVec_transpose (A := H) (x := R⁻¹ *ᵥ q),
        ← Matrix.dotProduct_mulVec, ← hq, dotProduct_comm]
    rwa [ha, Matrix.smul_mulVec, dotProduct_smul, smul_eq_mul, hB] at this
  have hi := (psd_inv hR).2 (R *ᵥ u - k • q)
  have e1 : R⁻¹ *ᵥ (R *ᵥ u) = u := by
    rw [Matrix.mulVec_mulVec, Matrix.nonsing_inv_mul _ hR.isUnit_det, Matrix.one_mulVec]
  have e2 : (R *ᵥ u) ⬝ᵥ R⁻¹ *ᵥ q = u ⬝ᵥ q := by
    rw [quad_comm (psd_inv hR).1, e1, dotProduct_comm]
  rw [Matrix.mulVec_sub, Matrix.mulVec_smul, e1, sub_dotProduct, dotProduct_sub, dotProduct_sub, smul_dotProduct,
    smul_dotProduct, dotProduct_smul, dotProduct_smul, e2, dotProduct_comm (R *ᵥ u) u, dotProduct_comm q u] at hi
  simp only [smul_eq_mul] at hi
  rw [ha]
  nlinarith [mul_le_mul_of_nonneg_left hb hk]

/-! ## The filter -/

theorem info_readings (H : Mat m n F) (c : Vec m F) (R : Mat m m F) (ys : List (Vec m F)) :
    info (readings H c R ys) = (ys.length : F) • (Hᵀ * R⁻¹ * H) := by
  induction ys with
  | nil => simp [info, readings]
  | cons y ys ih =>
    have : info (readings H c R (y :: ys)) = Hᵀ * R⁻¹ * H + info (readings H c R ys) := by simp [info, readings]
    rw [this, ih, List.length_cons, Nat.cast_add, Nat.cast_one, add_smul, one_smul, add_comm]

theorem infoVec_readings (H : Mat m n F) (c : Vec m F) (R : Mat m m F) (x : Vec n F) (ys : List (Vec m F)) :
    infoVec (readings H c R ys) = info (readings H c R ys) *ᵥ x
      + (Hᵀ * R⁻¹) *ᵥ (ys.map (fun y => y - (H *ᵥ x + c))).sum := by
  induction ys with
  | nil => simp [info, infoVec, readings]
  | cons y ys ih =>
    have h1 : info (readings H c R (y :: ys)) = Hᵀ * R⁻¹ * H + info (readings H c R ys) := by simp [info, readings]
    have h2 : infoVec (readings H c R (y :: ys)) = (Hᵀ * R⁻¹) *ᵥ (y - c) + infoVec (readings H c R ys) := by
      simp [infoVec, readings]
    have h3 : (Hᵀ * R⁻¹) *ᵥ (y - c) = (Hᵀ * R⁻¹ * H) *ᵥ x + (Hᵀ * R⁻¹) *ᵥ (y - (H *ᵥ x + c)) := by
      rw [show (Hᵀ * R⁻¹ * H) *ᵥ x = (Hᵀ * R⁻¹) *ᵥ (H *ᵥ x) from (Matrix.mulVec_mulVec _ _ _).symm, ← Matrix.mulVec_add]
      congr 1; abel
    rw [h1, h2, ih, List.map_cons, List.sum_cons, Matrix.add_mulVec, Matrix.mulVec_add, h3]
    abel

theorem readings_PD {H : Mat m n F} {c : Vec m F} {R : Mat m m F} (hR : PD R) (ys : List (Vec m F)) :
    ∀ z ∈ readings H c R ys, PD z.R := by
  intro z hz
  simp only [readings, List.mem_map] at hz
  obtain ⟨y, -, rfl⟩ := hz
  exact hR

theorem isSymm_info_block (H : Mat m n F) {R : Mat m m F} (hR : PD R) (k : F) : (k • (Hᵀ * R⁻¹ * H)).IsSymm := by
  have : (Hᵀ * R⁻¹ * H).IsSymm := by
    rw [Matrix.IsSymm, Matrix.transpose_mul, Matrix.transpose_mul, Matrix.transpose_transpose, (psd_inv hR).1.eq, Matrix.mul_assoc]
  rw [Matrix.IsSymm, Matrix.transpose_smul, this.eq]

/-- **C143** After `k` readings of one sensor the variance of every combination of predicted readings is at most a
`k`-th of the variance of that combination of the sensor's noise — whatever the prior, and whatever the readings were. -/
theorem ekf_repeat_variance (env : Env (Vec n F) F n) (hs : SolveOk env) (hv : VectorSpace env)
    (H : Mat m n F) (c : Vec m F) {R : Mat m m F} (hR : PD R) (ys : List (Vec m F))
    (s : State (Vec n F) F n) (hP : PSD s.P) (u : Vec m F) :
    (ys.length : F) * (u ⬝ᵥ (H * (fuse env (readings H c R ys) s).P * Hᵀ) *ᵥ u) ≤ u ⬝ᵥ R *ᵥ u := by
  obtain ⟨a1, a2, a3, -⟩ := ekf_fusion_information_form env hs hv (readings H c R ys) s hP (readings_PD hR ys)
  rw [info_readings] at a1 a3
  have := sensor_le H hR (ys.length : F) (Nat.cast_nonneg _)
    (post_le hP (isSymm_info_block H hR _) a2 a1 a3) u
  rw [Matrix.mulVec_transpose, ← Matrix.dotProduct_mulVec, ← Matrix.mulVec_transpose, Matrix.mulVec_mulVec,
    Matrix.mulVec_mulVec] at this
  exact this

/-- **C143** Error of the prediction after `k ≥ 1` readings with true state `x`, prior error `P y`: its square is at most
twice the sensor's variance times (`yᵀ P y / k` plus the squared mean noise weighted by `R⁻¹`). -/
theorem ekf_repeat_estimate (env : Env (Vec n F) F n) (hs : SolveOk env) (hv : VectorSpace env)
    (H : Mat m n F) (c : Vec m F) {R : Mat m m F} (hR : PD R) (ys : List (Vec m F)) (hys : ys ≠ [])
    (s : State (Vec n F) F n) (hP : PSD s.P) (x y : Vec n F) (hx : s.g - x = s.P *ᵥ y) (u : Vec m F) :
    (u ⬝ᵥ H *ᵥ ((fuse env (readings H c R ys) s).g - x)) ^ 2
      ≤ 2 * (u ⬝ᵥ R *ᵥ u) * ((y ⬝ᵥ s.P *ᵥ y) / ys.length + meanNoise H c x ys ⬝ᵥ R⁻¹ *ᵥ meanNoise H c x ys) := by
  obtain ⟨a1, a2, a3, a4⟩ := ekf_fusion_information_form env hs hv (readings H c R ys) s hP (readings_PD hR ys)
  have hk : (0 : F) < ys.length := by exact_mod_cast List.length_pos_iff.2 hys
  set k : F := (ys.length : F) with hkd
  set P' := (fuse env (readings H c R ys) s).P
  set b := meanNoise H c x ys with hb
  have hsum : (ys.map (fun y => y - (H *ᵥ x + c))).sum = k • b := by
    rw [hb, meanNoise, smul_smul, mul_inv_cancel₀ hk.ne', one_smul]
  -- the error
  have he : (fuse env (readings H c R ys) s).g - x = P' *ᵥ (y + (Hᵀ * R⁻¹) *ᵥ (k • b)) := by
    refine isUnit_det_cancel_vec a1 ?_
    rw [Matrix.mulVec_sub, a4, infoVec_readings H c R x, hsum, Matrix.mulVec_mulVec, a3, Matrix.mulVec_add, Matrix.mulVec_add,
      Matrix.add_mulVec, Matrix.one_mulVec, Matrix.mulVec_mulVec, ← hx]
    abel
  rw [info_readings] at a1 a3
  have hpl := post_le hP (isSymm_info_block H hR _) a2 a1 a3
  have hsl := sensor_le H hR k hk.le hpl
  have hPle : y ⬝ᵥ P' *ᵥ y ≤ y ⬝ᵥ s.P *ᵥ y :=
    post_le_prior hP ⟨isSymm_info_block H hR _, fun w => by
      rw [Matrix.smul_mulVec, dotProduct_smul, smul_eq_mul, ← Matrix.mulVec_mulVec, ← Matrix.mulVec_mulVec, dotProduct_comm,
        Matrix.mulVec_transpose, ← Matrix.dotProduct_mulVec, dotProduct_comm]
      exact mul_nonneg (Nat.cast_nonneg _) ((psd_inv hR).2 _)⟩ a2 a1 a3 y
  set U := Hᵀ *ᵥ u with hU
  set W := Hᵀ *ᵥ (R⁻¹ *ᵥ (k • b)) with hW
  have hsplit : u ⬝ᵥ H *ᵥ (P' *ᵥ (y + (Hᵀ * R⁻¹) *ᵥ (k • b))) = U ⬝ᵥ P' *ᵥ y + U ⬝ᵥ P' *ᵥ W := by
    rw [hU, Matrix.mulVec_transpose, ← Matrix.dotProduct_mulVec, ← Matrix.dotProduct_mulVec, ← dotProduct_add, ← Matrix.mulVec_add,
      ← Matrix.mulVec_add, hW, Matrix.mulVec_mulVec (M := Hᵀ)]
  have c1 := psd_cauchy a2 U y
  have c2 := psd_cauchy a2 U W
  have hu := hsl u
  have hw := hsl (R⁻¹ *ᵥ (k • b))
  have hRw : (R⁻¹ *ᵥ (k • b)) ⬝ᵥ R *ᵥ (R⁻¹ *ᵥ (k • b)) = k * k * (b ⬝ᵥ R⁻¹ *ᵥ b) := by
    rw [Matrix.mulVec_mulVec (M := R), Matrix.mul_nonsing_inv _ hR.isUnit_det, Matrix.one_mulVec, Matrix.mulVec_smul, smul_dotProduct,
      dotProduct_smul, smul_eq_mul, smul_eq_mul, dotProduct_comm, mul_assoc]
  rw [hRw, ← hW] at hw
  rw [← hU] at hu
  have hu' : U ⬝ᵥ P' *ᵥ U ≤ (u ⬝ᵥ R *ᵥ u) / k := by rw [le_div_iff₀ hk]; linarith
  have hw' : W ⬝ᵥ P' *ᵥ W ≤ k * (b ⬝ᵥ R⁻¹ *ᵥ b) := by
    refine le_of_mul_le_mul_left ?_ hk; linarith
  have hr0 := hR.psd.2 u
  have d1 : (U ⬝ᵥ P' *ᵥ y) ^ 2 ≤ (u ⬝ᵥ R *ᵥ u) / k * (y ⬝ᵥ s.P *ᵥ y) :=
    c1.trans (mul_le_mul hu' hPle (a2.2 y) (div_nonneg hr0 hk.le))
  have d2 : (U ⬝ᵥ P' *ᵥ W) ^ 2 ≤ (u ⬝ᵥ R *ᵥ u) / k * (k * (b ⬝ᵥ R⁻¹ *ᵥ b)) :=
    c2.trans (mul_le_mul hu' hw' (a2.2 W) (div_nonneg hr0 hk.le))
  have e2 : (u ⬝ᵥ R *ᵥ u) / k * (k * (b ⬝ᵥ R⁻¹ *ᵥ b)) = (u ⬝ᵥ R *ᵥ u) * (b ⬝ᵥ R⁻¹ *ᵥ b) := by field_simp
  have e1 : (u ⬝ᵥ R *ᵥ u) / k * (y ⬝ᵥ s.P *ᵥ y) = (u ⬝ᵥ R *ᵥ u) * ((y ⬝ᵥ s.P *ᵥ y) / k) := by ring
  rw [he, hsplit]
  rw [e2] at d2
  rw [e1] at d1
  nlinarith [sq_nonneg (U ⬝ᵥ P' *ᵥ y - U ⬝ᵥ P' *ᵥ W)]

/-- **C143** If the means of the noises of a sequence of readings tend to zero, the predicted readings tend to the reading
at the true state. -/
theorem ekf_repeat_consistent {n m : ℕ} (env : Env (Vec n ℝ) ℝ n) (hs : SolveOk env) (hv : VectorSpace env)
    (H : Mat m n ℝ) (c : Vec m ℝ) {R : Mat m m ℝ} (hR : PD R) (y : ℕ → Vec m ℝ)
    (s : State (Vec n ℝ) ℝ n) (hP : PD s.P) (x : Vec n ℝ)
    (hmean : ∀ i, Filter.Tendsto (fun k => meanNoise H c x ((List.range k).map y) i) Filter.atTop (nhds 0)) (i : Fin m) :
    Filter.Tendsto (fun k => (H *ᵥ (fuse env (readings H c R ((List.range k).map y)) s).g + c) i) Filter.atTop
      (nhds ((H *ᵥ x + c) i)) := by
  have hx : s.g - x = s.P *ᵥ (s.P⁻¹ *ᵥ (s.g - x)) := by
    rw [Matrix.mulVec_mulVec, Matrix.mul_nonsing_inv _ hP.isUnit_det, Matrix.one_mulVec]
  set w := s.P⁻¹ *ᵥ (s.g - x)
  set b := fun k => meanNoise H c x ((List.range k).map y) with hb
  have hq : Filter.Tendsto (fun k => b k ⬝ᵥ R⁻¹ *ᵥ b k) Filter.atTop (nhds 0) := by
    have : Filter.Tendsto (fun k => ∑ p, b k p * ∑ q, R⁻¹ p q * b k q) Filter.atTop (nhds (∑ p : Fin m, (0 : ℝ) * ∑ q, R⁻¹ p q * 0)) :=
      tendsto_finsetSum _ fun p _ => (hmean p).mul (tendsto_finsetSum _ fun q _ => (hmean q).const_mul _)
    simpa [dotProduct, Matrix.mulVec] using this
  have hbd : Filter.Tendsto (fun k : ℕ => 2 * (Pi.single i 1 ⬝ᵥ R *ᵥ Pi.single i 1) * ((w ⬝ᵥ s.P *ᵥ w) / k + b k ⬝ᵥ R⁻¹ *ᵥ b k))
      Filter.atTop (nhds 0) := by
    have h1 : Filter.Tendsto (fun k : ℕ => (w ⬝ᵥ s.P *ᵥ w) / k) Filter.atTop (nhds 0) := tendsto_const_div_atTop_nhds_zero_nat _
    simpa using (h1.add hq).const_mul (2 * (Pi.single i 1 ⬝ᵥ R *ᵥ Pi.single i 1))
  have hsq : Filter.Tendsto (fun k => ((H *ᵥ ((fuse env (readings H c R ((List.range k).map y)) s).g - x)) i) ^ 2)
      Filter.atTop (nhds 0) := by
    refine tendsto_of_tendsto_of_tendsto_of_le_of_le' tendsto_const_nhds hbd (Filter.Eventually.of_forall fun k => sq_nonneg _) ?_
    filter_upwards [Filter.eventually_ge_atTop 1] with k hk
    have := ekf_repeat_estimate env hs hv H c hR ((List.range k).map y)
      (by simp only [ne_eq, List.map_eq_nil_iff, List.range_eq_nil]; omega) s hP.psd x w hx (Pi.single i 1)
    rw [single_one_dotProduct, List.length_map, List.length_range] at this
    exact this
  have h0 : Filter.Tendsto (fun k => (H *ᵥ ((fuse env (readings H c R ((List.range k).map y)) s).g - x)) i)
      Filter.atTop (nhds 0) := by
    have := (Real.continuous_sqrt.tendsto 0).comp hsq
    simp only [Real.sqrt_zero] at this
    refine (tendsto_zero_iff_abs_tendsto_zero _).2 (this.congr fun k => ?_)
    simp [Real.sqrt_sq_eq_abs]
  have := h0.add_const ((H *ᵥ x + c) i)
  rw [zero_add] at this
  refine this.congr fun k => ?_
  simp only [Matrix.mulVec_sub, Pi.sub_apply, Pi.add_apply]
  ring

end Verif.EKF
